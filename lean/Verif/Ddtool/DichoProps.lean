import Verif.Ddtool.RddminProps

/-!
# The dichotomy and the default search `DRDDMin` (C42)
-/

namespace Verif.Ddtool

variable {α K : Type} [DecidableEq α] [DecidableEq K]

/-- A family of disjoint non-empty parts of `deltas`. -/
structure Fam (deltas : List α) (L : List (List α)) : Prop where
  sub : ∀ c ∈ L, c.Sublist deltas
  ne : ∀ c ∈ L, c ≠ []
  disj : L.Pairwise List.Disjoint

theorem Fam.sublist {deltas : List α} {L M : List (List α)} (h : Fam deltas L)
    (hs : M.Sublist L) : Fam deltas M :=
  ⟨fun c hc => h.sub c (hs.subset hc), fun c hc => h.ne c (hs.subset hc),
    h.disj.sublist hs⟩

/-- The elements of `L` are parts of elements of `M`. -/
def Below (L M : List (List α)) : Prop := ∀ c ∈ L, ∃ m ∈ M, c.Sublist m

theorem Below.refl (L : List (List α)) : Below L L := fun c hc => ⟨c, hc, List.Sublist.refl _⟩

theorem Below.trans {L M P : List (List α)} (h1 : Below L M) (h2 : Below M P) : Below L P := by
  intro c hc
  obtain ⟨m, hm, h⟩ := h1 c hc
  obtain ⟨p, hp, h'⟩ := h2 m hm
  exact ⟨p, hp, h.trans h'⟩

theorem Below.of_subset {L M : List (List α)} (h : ∀ c ∈ L, c ∈ M) : Below L M :=
  fun c hc => ⟨c, h c hc, List.Sublist.refl _⟩

theorem Below.append {L L' M : List (List α)} (h1 : Below L M) (h2 : Below L' M) :
    Below (L ++ L') M := by
  intro c hc
  rcases List.mem_append.1 hc with h | h
  · exact h1 c h
  · exact h2 c h

/-- Families found below two halves of a family form a family. -/
theorem Fam.glue {deltas : List α} {A B L M : List (List α)} (h : Fam deltas (A ++ B))
    (hL : Fam deltas L) (hM : Fam deltas M) (bL : Below L A) (bM : Below M B) :
    Fam deltas (L ++ M) := by
  refine ⟨fun c hc => ?_, fun c hc => ?_, ?_⟩
  · rcases List.mem_append.1 hc with h | h
    · exact hL.sub c h
    · exact hM.sub c h
  · rcases List.mem_append.1 hc with h | h
    · exact hL.ne c h
    · exact hM.ne c h
  · refine List.pairwise_append.2 ⟨hL.disj, hM.disj, fun a ha b hb => ?_⟩
    obtain ⟨a', ha', sa⟩ := bL a ha
    obtain ⟨b', hb', sb⟩ := bM b hb
    have := (List.pairwise_append.1 h.disj).2.2 a' ha' b' hb'
    exact fun x hxa hxb => this (sa.subset hxa) (sb.subset hxb)

theorem split_fam {c : List α} (hnd : c.Nodup) {n : Nat} (h1 : 1 ≤ n) (h2 : n ≤ c.length) :
    Fam c (split c n) := by
  refine ⟨fun s hs => split_sublist c n h1 hs, split_ne_nil c n h1 h2, ?_⟩
  have : (split c n).flatten.Nodup := by rw [split_flatten c n h1]; exact hnd
  exact (List.nodup_flatten.1 this).2

theorem disj_symm {a b : List α} (h : a.Disjoint b) : b.Disjoint a := fun _ hb ha => h ha hb

/-- Total number of deltas. -/
def total (L : List (List α)) : Nat := L.flatten.length

theorem total_sublist {L M : List (List α)} (h : L.Sublist M) : total L ≤ total M := by
  induction h with
  | slnil => exact Nat.le_refl _
  | cons a _ ih =>
    simp only [total, List.flatten_cons, List.length_append] at ih ⊢; omega
  | cons_cons a _ ih =>
    simp only [total, List.flatten_cons, List.length_append] at ih ⊢; omega

/-- What a treated candidate may produce. -/
structure TreatOk (e : Env α K) (candidat : List α) (P : List (List α)) (t : Treat α)
    (d : Disk K) : Prop where
  fails : ∀ c ∈ t.res ++ t.failed, Fails d (e.name c)
  shape : (t.res ++ (t.failed ++ t.unknown)).Sublist P ∨ t = ⟨[candidat], [], []⟩
  only : t.failed = [] ∧ t.unknown = [] ∨
    ∃ ci, t.failed = [ci] ∧ ci.length ≠ 1 ∧ (ci :: t.unknown).Sublist P

theorem treatLoop_spec {e : Env α K} {B : Nat} (h : Setup e B) {N : Nat} (hN : N ≤ B)
    (candidat : List α) : ∀ (P : List (List α)) (cut : Bool) (d : Disk K), Good e B d →
      Fails d (e.name candidat) →
      ∃ t d', treatLoop e N candidat P cut d = .ok (t, d') ∧ Good e B d' ∧
        (∀ k, Fails d k → Fails d' k) ∧ TreatOk e candidat P t d' ∧
        (cut = true → (t.res ++ (t.failed ++ t.unknown)).Sublist P) := by
  intro P
  induction P with
  | nil =>
    intro cut d hg hf
    cases cut with
    | true =>
      refine ⟨⟨[], [], []⟩, d, by simp [treatLoop], hg, fun _ h => h, ⟨by simp, .inl (by simp),
        .inl ⟨rfl, rfl⟩⟩, by simp⟩
    | false =>
      refine ⟨⟨[candidat], [], []⟩, d, by simp [treatLoop], hg, fun _ h => h,
        ⟨by simpa using hf, .inr rfl, .inl ⟨rfl, rfl⟩⟩, by simp⟩
  | cons ci P ih =>
    intro cut d hg hf
    obtain ⟨v, d1, h1, t1, -⟩ := h.test hN ci hg
    cases v with
    | pass =>
      obtain ⟨t, d2, h2, g2, f2, ok, hc⟩ := ih cut d1 t1.good (t1.ext.fails hf)
      refine ⟨t, d2, by simp [treatLoop, h1, h2], g2, fun k hk => f2 k (t1.ext.fails hk),
        ⟨ok.fails, ?_, ?_⟩, fun h => (hc h).cons _⟩
      · rcases ok.shape with h | h
        · exact .inl (h.cons _)
        · exact .inr h
      · rcases ok.only with h | ⟨c, a, b, s⟩
        · exact .inl h
        · exact .inr ⟨c, a, b, s.cons _⟩
    | fail =>
      by_cases hl : ci.length = 1
      · obtain ⟨v2, d2, h2, t2, -⟩ := h.test h.nb ci t1.good
        obtain ⟨t, d3, h3, g3, f3, ok, hc⟩ := ih true d2 t2.good
          (t2.ext.fails (t1.ext.fails hf))
        have hs := hc rfl
        refine ⟨⟨ci :: t.res, t.failed, t.unknown⟩, d3, by simp [treatLoop, h1, hl, h2, h3], g3,
          fun k hk => f3 k (t2.ext.fails (t1.ext.fails hk)), ⟨?_, .inl ?_, ?_⟩, fun _ => ?_⟩
        · intro c hc
          simp only [List.cons_append, List.mem_cons] at hc
          rcases hc with rfl | hc
          · exact f3 _ (t2.ext.fails (t1.fail rfl))
          · exact ok.fails c hc
        · exact hs.cons_cons ci
        · rcases ok.only with h | ⟨c, a, b, s⟩
          · exact .inl h
          · exact .inr ⟨c, a, b, s.cons _⟩
        · exact hs.cons_cons ci
      · refine ⟨⟨[], [ci], P⟩, d1, by simp [treatLoop, h1, hl], t1.good,
          fun k hk => t1.ext.fails hk, ⟨by simpa using t1.fail rfl, .inl (by simp),
          .inr ⟨ci, rfl, hl, List.Sublist.refl _⟩⟩, by simp⟩

/-- Bound on the number of rounds of the dichotomy. -/
def weight (F U : List (List α)) : Nat :=
  (F.map fun c => 3 * c.length - 2).sum + (U.map fun c => 3 * c.length - 1).sum

theorem weight_unknown {U : List (List α)} (h : ∀ c ∈ U, c ≠ []) :
    (U.map fun c => 3 * c.length - 1).sum + U.length = 3 * total U := by
  induction U with
  | nil => simp [total]
  | cons c U ih =>
    have := ih fun c hc => h c (by simp [hc])
    have hc : 1 ≤ c.length := List.length_pos_iff.2 (h c (by simp))
    simp only [total, List.map_cons, List.sum_cons, List.length_cons, List.flatten_cons,
      List.length_append] at this ⊢
    omega

/-- Treating a candidate makes progress, for every granularity but 1. -/
theorem treatFailed_spec {e : Env α K} {B : Nat} (h : Setup e B) {N : Nat} (hN : N ≤ B)
    {g : Int} (hgran : g ≠ 1) {candidat deltas : List α} (hs : candidat.Sublist deltas)
    (hnd : deltas.Nodup) (hne : candidat ≠ []) {d : Disk K} (hg : Good e B d)
    (hf : Fails d (e.name candidat)) :
    ∃ t d', treatFailed e N g candidat d = .ok (t, d') ∧ Good e B d' ∧
      (∀ k, Fails d k → Fails d' k) ∧ (∀ c ∈ t.res ++ t.failed, Fails d' (e.name c)) ∧
      Fam deltas (t.res ++ (t.failed ++ t.unknown)) ∧
      Below (t.res ++ (t.failed ++ t.unknown)) [candidat] ∧
      weight t.failed t.unknown < 3 * candidat.length - 2 := by
  obtain ⟨t, d', h1, g1, f1, ok, -⟩ := treatLoop_spec h hN candidat
    (split candidat (min g candidat.length).toNat) false d hg hf
  have hpos : 1 ≤ candidat.length := List.length_pos_iff.2 hne
  have hfamc : Fam deltas [candidat] := ⟨by simpa using hs, by simpa using hne, by simp⟩
  refine ⟨t, d', h1, g1, f1, ok.fails, ?_⟩
  by_cases hg0 : g ≤ 0
  · have : (min g candidat.length).toNat = 0 := by omega
    rw [this, split_zero] at ok
    have ht : t.failed = [] ∧ t.unknown = [] := by
      rcases ok.only with h | ⟨ci, -, -, hs⟩
      · exact h
      · simp at hs
    have hfam : Fam deltas (t.res ++ (t.failed ++ t.unknown)) ∧
        Below (t.res ++ (t.failed ++ t.unknown)) [candidat] := by
      rcases ok.shape with h | h
      · rw [List.sublist_nil.1 h]; exact ⟨⟨by simp, by simp, by simp⟩, by simp [Below]⟩
      · rw [h]; exact ⟨by simpa using hfamc, by simpa using Below.refl [candidat]⟩
    refine ⟨hfam.1, hfam.2, ?_⟩
    rw [ht.1, ht.2]; simp [weight]; omega
  · obtain ⟨n, hn, hn1, hn2, hn3⟩ : ∃ n, (min g candidat.length).toNat = n ∧ 1 ≤ n ∧
        n ≤ candidat.length ∧ (2 ≤ n ∨ candidat.length = 1) := ⟨_, rfl, by omega⟩
    rw [hn] at ok
    have hfam := split_fam (hs.nodup hnd) hn1 hn2
    have hfamD : Fam deltas (split candidat n) :=
      ⟨fun c hc => (hfam.sub c hc).trans hs, hfam.ne, hfam.disj⟩
    have hbel : Below (split candidat n) [candidat] := fun c hc =>
      ⟨candidat, by simp, hfam.sub c hc⟩
    have hFB : Fam deltas (t.res ++ (t.failed ++ t.unknown)) ∧
        Below (t.res ++ (t.failed ++ t.unknown)) [candidat] := by
      rcases ok.shape with h | h
      · exact ⟨hfamD.sublist h, (Below.of_subset fun c hc => h.subset hc).trans hbel⟩
      · rw [h]; exact ⟨by simpa using hfamc, by simpa using Below.refl [candidat]⟩
    refine ⟨hFB.1, hFB.2, ?_⟩
    rcases ok.only with ⟨h1, h2⟩ | ⟨ci, h1, h2, h3⟩
    · rw [h1, h2]; simp [weight]; omega
    · have hci : ci ∈ split candidat n := h3.subset (by simp)
      have hcp : 1 ≤ ci.length := List.length_pos_iff.2 (hfam.ne ci hci)
      have hn2' : 2 ≤ n := by
        rcases hn3 with h | h
        · exact h
        · exfalso
          have := (hfam.sub ci hci).length_le
          omega
      have htot := total_sublist h3
      rw [show total (split candidat n) = candidat.length by
        unfold total; rw [split_flatten candidat n hn1]] at htot
      have hU := weight_unknown (U := t.unknown) fun c hc =>
        hfam.ne c (h3.subset (List.mem_cons_of_mem _ hc))
      have htc : total (ci :: t.unknown) = ci.length + total t.unknown := by simp [total]
      have hlt := (length_compl hn1 hn2 (hs.nodup hnd) hci)
      have hll := length_listminus (hs.nodup hnd) (hfam.sub ci hci)
      have : total t.unknown ≤ 3 * total t.unknown := by omega
      unfold weight
      rw [h1]
      simp only [List.map_cons, List.map_nil, List.sum_cons, List.sum_nil]
      rcases Nat.eq_zero_or_pos t.unknown.length with h0 | h0
      · have : t.unknown = [] := List.length_eq_zero_iff.1 h0
        rw [this] at hU htc ⊢
        simp [total] at hU htc ⊢
        omega
      · omega

theorem splitDLoop_spec {e : Env α K} {B : Nat} (h : Setup e B) {N : Nat} (hN : N ≤ B)
    {g : Int} (hgran : g ≠ 1) {deltas : List α} (hnd : deltas.Nodup) :
    ∀ (f : Nat) (F U : List (List α)) (d : Disk K), Good e B d → Fam deltas (F ++ U) →
      (∀ c ∈ F, Fails d (e.name c)) → weight F U < f →
      ∃ res d', splitDLoop e N g deltas.length f F U d = .ok (res, d') ∧ Good e B d' ∧
        (∀ k, Fails d k → Fails d' k) ∧ Fam deltas res ∧ Below res (F ++ U) ∧
        ∀ c ∈ res, Fails d' (e.name c) := by
  intro f
  induction f with
  | zero => intro F U d _ _ _ h; omega
  | succ f ih =>
    intro F U d hg hfam hF hw
    -- testing a candidate of unknown status
    have unk : ∀ (F : List (List α)) (u : List α) (us : List (List α)),
        Fam deltas (F ++ u :: us) → (∀ c ∈ F, Fails d (e.name c)) → weight F (u :: us) < f + 1 →
        ∃ v d1 res d', test e u N d = .ok (v, d1) ∧
          splitDLoop e N g deltas.length f (if v = .fail then u :: F else F) us d1 =
            .ok (res, d') ∧ Good e B d' ∧
          (∀ k, Fails d k → Fails d' k) ∧ Fam deltas res ∧ Below res (F ++ u :: us) ∧
          ∀ c ∈ res, Fails d' (e.name c) := by
      intro F u us hfam hF hw
      obtain ⟨v, d1, h1, t1, -⟩ := h.test hN u hg
      have hu : 1 ≤ u.length := List.length_pos_iff.2 (hfam.ne u (by simp))
      cases v with
      | fail =>
        have hperm : (F ++ u :: us).Perm (u :: F ++ us) := by
          simpa using List.perm_middle
        obtain ⟨res, d', a, b, c, x, y, z⟩ := ih (u :: F) us d1 t1.good
          ⟨fun c hc => hfam.sub c (hperm.mem_iff.2 hc),
            fun c hc => hfam.ne c (hperm.mem_iff.2 hc),
            (hperm.pairwise_iff disj_symm).1 hfam.disj⟩
          (fun c hc => by
            rcases List.mem_cons.1 hc with rfl | hc
            · exact t1.fail rfl
            · exact t1.ext.fails (hF c hc))
          (by simp only [weight, List.map_cons, List.sum_cons] at hw ⊢; omega)
        exact ⟨.fail, d1, res, d', h1, by simpa using a, b,
          fun k hk => c k (t1.ext.fails hk), x,
          y.trans (Below.of_subset fun c hc => hperm.mem_iff.2 hc), z⟩
      | pass =>
        have hsubl : (F ++ us).Sublist (F ++ u :: us) :=
          List.Sublist.append_left (List.sublist_cons_self u us) F
        obtain ⟨res, d', a, b, c, x, y, z⟩ := ih F us d1 t1.good (hfam.sublist hsubl)
          (fun c hc => t1.ext.fails (hF c hc))
          (by simp only [weight, List.map_cons, List.sum_cons] at hw ⊢; omega)
        exact ⟨.pass, d1, res, d', h1, by simpa using a, b,
          fun k hk => c k (t1.ext.fails hk), x,
          y.trans (Below.of_subset fun c hc => hsubl.subset hc), z⟩
    match F, U with
    | [], [] => exact ⟨[], d, rfl, hg, fun _ h => h, ⟨by simp, by simp, by simp⟩, by simp [Below],
        by simp⟩
    | [], u :: us =>
      obtain ⟨v, d1, res, d', h1, h2, rest⟩ := unk [] u us hfam hF hw
      refine ⟨res, d', ?_, rest⟩
      rw [splitDLoop, h1]
      exact h2
    | c :: cs, us =>
      have hcs : c.Sublist deltas := hfam.sub c (by simp)
      have hcne : c ≠ [] := hfam.ne c (by simp)
      have hcpos : 1 ≤ c.length := List.length_pos_iff.2 hcne
      -- treating a failing candidate
      have treat : ∃ t d1 res d', treatFailed e N g c d = .ok (t, d1) ∧
          splitDLoop e N g deltas.length f (t.failed ++ cs) (t.unknown ++ us) d1 =
            .ok (res, d') ∧ Good e B d' ∧
          (∀ k, Fails d k → Fails d' k) ∧ Fam deltas (t.res ++ res) ∧
          Below (t.res ++ res) (c :: cs ++ us) ∧
          ∀ c ∈ t.res ++ res, Fails d' (e.name c) := by
        obtain ⟨t, d1, h1, g1, f1, tf, tfam, tb, tw⟩ := treatFailed_spec h hN hgran hcs hnd hcne hg
          (hF c (by simp))
        have hall : Fam deltas ((t.res ++ (t.failed ++ t.unknown)) ++ (cs ++ us)) :=
          Fam.glue (A := [c]) (B := cs ++ us) (by simpa using hfam) tfam
            (hfam.sublist (by simp)) tb (Below.refl _)
        have hperm : ((t.res ++ (t.failed ++ t.unknown)) ++ (cs ++ us)).Perm
            (t.res ++ ((t.failed ++ cs) ++ (t.unknown ++ us))) := by
          rw [List.append_assoc]
          apply List.Perm.append_left
          rw [List.append_assoc, List.append_assoc]
          apply List.Perm.append_left
          rw [← List.append_assoc, ← List.append_assoc]
          exact List.Perm.append_right _ List.perm_append_comm
        have hall' : Fam deltas (t.res ++ ((t.failed ++ cs) ++ (t.unknown ++ us))) :=
          ⟨fun c hc => hall.sub c (hperm.mem_iff.2 hc),
            fun c hc => hall.ne c (hperm.mem_iff.2 hc),
            (hperm.pairwise_iff disj_symm).1 hall.disj⟩
        obtain ⟨res, d', h2, g2, f2, rfam, rb, rf⟩ := ih (t.failed ++ cs) (t.unknown ++ us) d1 g1
          (hall'.sublist (List.sublist_append_right _ _))
          (fun x hx => by
            rcases List.mem_append.1 hx with hx | hx
            · exact tf x (by simp [hx])
            · exact f1 _ (hF x (by simp [hx])))
          (by
            simp only [weight, List.map_append, List.sum_append, List.map_cons,
              List.sum_cons] at hw tw ⊢
            omega)
        refine ⟨t, d1, res, d', h1, h2, g2, fun k hk => f2 k (f1 k hk),
          Fam.glue hall' (hall'.sublist (List.sublist_append_left _ _)) rfam (Below.refl _) rb,
          ?_, fun x hx => ?_⟩
        · refine Below.append ?_ (rb.trans ?_)
          · intro x hx
            obtain ⟨m, hm, hs⟩ := tb x (by simp [hx])
            exact ⟨m, by simp at hm; simp [hm], hs⟩
          · intro x hx
            have : x ∈ t.failed ++ t.unknown ∨ x ∈ cs ++ us := by
              simp only [List.mem_append] at hx ⊢; tauto
            rcases this with hx | hx
            · obtain ⟨m, hm, hs⟩ := tb x (List.mem_append_right _ hx)
              exact ⟨m, by simp at hm; simp [hm], hs⟩
            · exact ⟨x, by simp only [List.cons_append]; exact List.mem_cons_of_mem _ hx,
                List.Sublist.refl _⟩
        · rcases List.mem_append.1 hx with hx | hx
          · exact f2 _ (tf x (by simp [hx]))
          · exact rf x hx
      match us with
      | [] =>
        obtain ⟨t, d1, res, d', h1, h2, rest⟩ := treat
        refine ⟨t.res ++ res, d', ?_, rest⟩
        rw [splitDLoop]
        simp only
        rw [if_pos hcs.length_le, h1]
        simp only [Res.ok_bind, h2]
      | u :: us =>
        by_cases hle : c.length ≤ u.length
        · obtain ⟨t, d1, res, d', h1, h2, rest⟩ := treat
          refine ⟨t.res ++ res, d', ?_, rest⟩
          rw [splitDLoop]
          simp only
          rw [if_pos hle, h1]
          simp only [Res.ok_bind, h2]
        · obtain ⟨v, d1, res, d', h1, h2, rest⟩ := unk (c :: cs) u us hfam hF hw
          refine ⟨res, d', ?_, rest⟩
          rw [splitDLoop]
          simp only
          rw [if_neg hle, h1]
          exact h2

theorem splitDeltas_spec {e : Env α K} {B : Nat} (h : Setup e B) {N : Nat} (hN : N ≤ B)
    {g : Int} (hgran : g ≠ 1) {deltas : List α} (hnd : deltas.Nodup) (fuel : Nat)
    (hfuel : enough deltas.length ≤ fuel) {d : Disk K} (hg : Good e B d) :
    ∃ res d', splitDeltas e fuel deltas N g d = .ok (res, d') ∧ Good e B d' ∧
      (∀ k, Fails d k → Fails d' k) ∧ Fam deltas res ∧ ∀ c ∈ res, Fails d' (e.name c) := by
  obtain ⟨v, d1, h1, t1, -⟩ := h.test h.nb deltas hg
  cases v with
  | pass =>
    exact ⟨[], d1, by simp [splitDeltas, h1], t1.good, fun k hk => t1.ext.fails hk,
      ⟨by simp, by simp, by simp⟩, by simp⟩
  | fail =>
    have hf := t1.fail rfl
    have hne := h.ne_nil t1.good hf
    have hpos := List.length_pos_iff.2 hne
    obtain ⟨res, d2, h2, g2, f2, fam, -, ff⟩ := splitDLoop_spec h hN hgran hnd fuel [deltas] [] d1
      t1.good ⟨by simp, by simpa using hne, by simp⟩ (by simpa using hf) (by
        have : 3 * deltas.length < enough deltas.length := by
          unfold enough
          have : (deltas.length + 2) * (deltas.length + 2) =
            deltas.length * deltas.length + 4 * deltas.length + 4 := by ring
          have := Nat.zero_le (deltas.length * deltas.length)
          omega
        simp [weight]; omega)
    exact ⟨res, d2, by simp [splitDeltas, h1, h2], g2, fun k hk => f2 k (t1.ext.fails hk), fam, ff⟩

theorem resplit_spec {e : Env α K} {B : Nat} (h : Setup e B) {N : Nat} (hN : N ≤ B)
    {g : Int} (hgran : g ≠ 1) {deltas : List α} (hnd : deltas.Nodup) (fuel : Nat)
    (hfuel : enough deltas.length ≤ fuel) :
    ∀ (cur : List (List α)) (d : Disk K), Good e B d → Fam deltas cur →
      (∀ c ∈ cur, Fails d (e.name c)) →
      ∃ res d', resplit e fuel N g cur d = .ok (res, d') ∧ Good e B d' ∧
        (∀ k, Fails d k → Fails d' k) ∧ Fam deltas res ∧ Below res cur ∧
        ∀ c ∈ res, Fails d' (e.name c) := by
  intro cur
  induction cur with
  | nil =>
    intro d hg hfam _
    exact ⟨[], d, rfl, hg, fun _ h => h, hfam, Below.refl _, by simp⟩
  | cons c cs ih =>
    intro d hg hfam hF
    have hsub := hfam.sub c (by simp)
    have step : ∃ r d1, (if c.length = 1 then Res.ok ([c], d) else splitDeltas e fuel c N g d) =
        .ok (r, d1) ∧ Good e B d1 ∧ (∀ k, Fails d k → Fails d1 k) ∧ Fam deltas r ∧
        Below r [c] ∧ ∀ x ∈ r, Fails d1 (e.name x) := by
      by_cases hl : c.length = 1
      · rw [if_pos hl]
        exact ⟨[c], d, rfl, hg, fun _ h => h, hfam.sublist (by simp), Below.refl _,
          by simpa using hF c (by simp)⟩
      · rw [if_neg hl]
        obtain ⟨r, d1, a, b, f, fam, ff⟩ := splitDeltas_spec h hN hgran (hsub.nodup hnd) fuel
          (Nat.le_trans (enough_mono hsub.length_le) hfuel) hg
        exact ⟨r, d1, a, b, f, ⟨fun x hx => (fam.sub x hx).trans hsub, fam.ne, fam.disj⟩,
          fun x hx => ⟨c, by simp, fam.sub x hx⟩, ff⟩
    obtain ⟨r, d1, h1, g1, f1, fam1, b1, ff1⟩ := step
    obtain ⟨rest, d2, h2, g2, f2, fam2, b2, ff2⟩ := ih d1 g1 (hfam.sublist (by simp))
      (fun x hx => f1 _ (hF x (by simp [hx])))
    refine ⟨r ++ rest, d2, ?_, g2, fun k hk => f2 k (f1 k hk),
      Fam.glue (A := [c]) (B := cs) (by simpa using hfam) fam1 fam2 b1 b2, ?_, fun x hx => ?_⟩
    · by_cases hl : c.length = 1
      · simp only [hl, if_true, Res.ok.injEq, Prod.mk.injEq] at h1
        obtain ⟨rfl, rfl⟩ := h1
        simp [resplit, hl, h2]
      · rw [if_neg hl] at h1
        simp [resplit, hl, h1, h2]
    · refine Below.append ?_ ?_
      · exact b1.trans (Below.of_subset (by simp))
      · exact b2.trans (Below.of_subset fun x hx => by simp [hx])
    · rcases List.mem_append.1 hx with hx | hx
      · exact f2 _ (ff1 x hx)
      · exact ff2 x hx

theorem ssplitLoop_spec {e : Env α K} {B : Nat} (h : Setup e B) {g : Int} (hgran : g ≠ 1)
    {deltas : List α} (hnd : deltas.Nodup) (fuel : Nat)
    (hfuel : enough deltas.length ≤ fuel) :
    ∀ (runs : List Nat) (cur : List (List α)) (d : Disk K), (∀ r ∈ runs, r ≤ B) → Good e B d →
      Fam deltas cur → (∀ c ∈ cur, Fails d (e.name c)) →
      ∃ res d', ssplitLoop e fuel g deltas runs cur d = .ok (res, d') ∧ Good e B d' ∧
        Fam deltas res ∧ ∀ c ∈ res, Fails d' (e.name c) := by
  intro runs
  induction runs with
  | nil => intro cur d _ hg hfam hF; exact ⟨cur, d, rfl, hg, hfam, hF⟩
  | cons run runs ih =>
    intro cur d hr hg hfam hF
    obtain ⟨next, d1, h1, g1, f1, fam1, -, ff1⟩ := resplit_spec h (hr run (by simp)) hgran hnd fuel
      hfuel cur d hg hfam hF
    have hsub := listminus_sublist deltas next.flatten
    obtain ⟨more, d2, h2, g2, f2, fam2, ff2⟩ := splitDeltas_spec h (hr run (by simp)) hgran
      (hsub.nodup hnd) fuel (Nat.le_trans (enough_mono hsub.length_le) hfuel) g1
    have fam : Fam deltas (next ++ more) := by
      refine ⟨fun c hc => ?_, fun c hc => ?_, ?_⟩
      · rcases List.mem_append.1 hc with h | h
        · exact fam1.sub c h
        · exact (fam2.sub c h).trans hsub
      · rcases List.mem_append.1 hc with h | h
        · exact fam1.ne c h
        · exact fam2.ne c h
      · refine List.pairwise_append.2 ⟨fam1.disj, fam2.disj, fun a ha b hb x hxa hxb => ?_⟩
        exact (mem_listminus.1 ((fam2.sub b hb).subset hxb)).2
          (List.mem_flatten.2 ⟨a, ha, hxa⟩)
    obtain ⟨res, d3, h3, rest⟩ := ih (next ++ more) d2 (fun r h => hr r (by simp [h])) g2 fam
      (fun c hc => by
        rcases List.mem_append.1 hc with h | h
        · exact f2 _ (ff1 c h)
        · exact ff2 c h)
    exact ⟨res, d3, by simp [ssplitLoop, h1, h2, h3], rest⟩

theorem foldl_listminus (found : List (List α)) : ∀ deltas : List α,
    found.foldl listminus deltas = listminus deltas found.flatten := by
  induction found with
  | nil => intro deltas; simp [listminus_nil]
  | cons c cs ih => intro deltas; simp [ih, listminus_listminus]

theorem analyse_spec {e : Env α K} {B : Nat} (h : Setup e B) {runTab : List Nat}
    {nbRun : Nat} (ht : Tab B runTab nbRun) (fuel : Nat) :
    ∀ (cs : List (List α)) (deltas : List α) (d : Disk K), deltas.Nodup →
      enough deltas.length ≤ fuel → Good e B d → Fam deltas cs →
      (∀ c ∈ cs, Fails d (e.name c)) →
      ∃ found left d', analyse e fuel runTab cs deltas d = .ok ((found, left), d') ∧
        Good e B d' ∧ Decomp e B nbRun deltas found left := by
  intro cs
  induction cs with
  | nil => intro deltas d _ _ hg _ _; exact ⟨[], deltas, d, rfl, hg, Decomp.nil _⟩
  | cons c cs ih =>
    intro deltas d hnd hfu hg hfam hF
    have hsub := hfam.sub c (by simp)
    have step : ∃ f1 d1, (if c.length = 1 then Res.ok ([c], d) else srddmin e fuel c runTab d) =
        .ok (f1, d1) ∧ Good e B d1 ∧ (∀ k, Fails d k → Fails d1 k) ∧
        Decomp e B nbRun c f1 (listminus c f1.flatten) := by
      by_cases hl : c.length = 1
      · rw [if_pos hl]
        refine ⟨[c], d, rfl, hg, fun _ h => h, ?_⟩
        have := Decomp.single (h.singleton (ht.bound _ ht.mem) (List.Sublist.refl c) hl hg
          (hF c (by simp)))
        simpa using this
      · rw [if_neg hl]
        obtain ⟨f1, left, d1, a, b, x, dc, -⟩ := srddmin_spec h ht fuel c (hsub.nodup hnd)
          (Nat.le_trans (enough_mono hsub.length_le) hfu) d hg (.inl (hF c (by simp)))
        exact ⟨f1, d1, a, b, x, dc.left_eq ▸ dc⟩
    obtain ⟨f1, d1, h1, g1, hmono, dc1⟩ := step
    have dc1' : Decomp e B nbRun deltas f1 (listminus deltas f1.flatten) :=
      ⟨rfl, fun x hx => (dc1.min x hx).trans hsub, dc1.disj⟩
    have hf1 : ∀ x ∈ f1.flatten, x ∈ c := by
      intro x hx
      obtain ⟨m, hm, hxm⟩ := List.mem_flatten.1 hx
      exact (dc1.min m hm).sub.subset hxm
    obtain ⟨f2, left, d2, h2, g2, dc2⟩ := ih (listminus deltas f1.flatten) d1
      ((listminus_sublist _ _).nodup hnd)
      (Nat.le_trans (enough_mono (listminus_sublist _ _).length_le) hfu) g1
      ⟨fun x hx => by
          have hxs := (hfam.sub x (by simp [hx])).filter fun y => decide (y ∉ f1.flatten)
          rwa [List.filter_eq_self.2 (fun y hy => by
            rw [decide_eq_true_eq]
            intro hyf
            exact (List.pairwise_cons.1 hfam.disj).1 x hx (hf1 y hyf) hy)] at hxs,
        fun x hx => hfam.ne x (by simp [hx]), (List.pairwise_cons.1 hfam.disj).2⟩
      (fun x hx => hmono _ (hF x (by simp [hx])))
    refine ⟨f1 ++ f2, left, d2, ?_, g2, dc1'.append dc2⟩
    rw [← foldl_listminus] at h2
    by_cases hl : c.length = 1
    · simp only [hl, if_true, Res.ok.injEq, Prod.mk.injEq] at h1
      obtain ⟨rfl, rfl⟩ := h1
      simp only [List.foldl_cons, List.foldl_nil] at h2
      simp [analyse, hl, h2]
    · rw [if_neg hl] at h1
      simp [analyse, hl, h1, h2]

/-- C42 (the default, `INTERFLOP_DD_RDDMIN=dicho`): `DRDDMin` terminates for every
granularity but 1; the sets found are pairwise disjoint, each fails a sample and passes
`nbRun` samples when any one of its deltas is removed; the deltas left pass `nbRun`
samples.  Missing: granularity 1, where it is false
(`C42_granularity_one_diverges`). -/
theorem C42_drddmin_partial {e : Env α K} {B : Nat} (h : Setup e B) {runTab dicTab : List Nat}
    {nbRun : Nat} (ht : Tab B runTab nbRun) (hd : ∀ r ∈ dicTab, r ≤ B) {g : Int}
    (hgran : g ≠ 1) (fuel : Nat) (deltas : List α) (hnd : deltas.Nodup)
    (hfuel : enough deltas.length ≤ fuel) (d : Disk K) (hg : Good e B d)
    (hall : ∃ i < nbRun, e.sample (e.name deltas) i = false) :
    ∃ found d', drddmin e fuel deltas runTab dicTab g d = .ok (found, d') ∧ Good e B d' ∧
      (∀ c ∈ found, MinS e B nbRun deltas c) ∧ found.Pairwise List.Disjoint ∧
      ∀ i < nbRun,
        e.sample (e.name (deltas.filter fun x => decide (∀ c ∈ found, x ∉ c))) i = true := by
  obtain ⟨v, d1, h1, t1, -⟩ := h.test (ht.bound _ ht.mem) deltas hg
  have hv : v = .fail := by
    cases v with
    | fail => rfl
    | pass =>
      obtain ⟨i, hi, h'⟩ := hall
      rw [t1.good.passes (t1.pass rfl) i hi] at h'; cases h'
  subst hv
  have hne := h.ne_nil t1.good (t1.fail rfl)
  obtain ⟨cands, d2, h2, g2, fam, ff⟩ := ssplitLoop_spec h hgran hnd fuel hfuel dicTab [deltas] d1 hd
    t1.good ⟨by simp, by simpa using hne, by simp⟩ (by simpa using t1.fail rfl)
  obtain ⟨found, left, d3, h3, g3, dc⟩ := analyse_spec h ht fuel cands deltas d2 hnd hfuel g2 fam ff
  obtain ⟨v, d4, h4, t4, -⟩ := h.test (ht.bound _ ht.mem) left g3
  have e1 : ∀ found : List (List α), listminus deltas found.flatten =
      deltas.filter fun x => decide (∀ c ∈ found, x ∉ c) := by
    intro found
    unfold listminus; apply List.filter_congr; intro x _; simp [List.mem_flatten]
  cases v with
  | pass =>
    refine ⟨found, d4, ?_, t4.good, dc.min, dc.disj, ?_⟩
    · simp [drddmin, ht.last, h1, ssplitDeltas, h2, h3, h4]
    · rw [← e1, ← dc.left_eq]; exact t4.good.passes (t4.pass rfl)
  | fail =>
    obtain ⟨more, left', d5, h5, g5, -, dc5, lp⟩ := srddmin_spec h ht fuel left
      (dc.sublist.nodup hnd) (Nat.le_trans (enough_mono dc.sublist.length_le) hfuel) d4 t4.good
      (.inl (t4.fail rfl))
    have dd := dc.append dc5
    refine ⟨found ++ more, d5, ?_, g5, dd.min, dd.disj, ?_⟩
    · simp [drddmin, ht.last, h1, ssplitDeltas, h2, h3, h4, h5]
    · rw [← e1, ← dd.left_eq]; exact lp

/-- Six deltas; `1` alone and `2, 5` together fail, the latter only at the second
sample. -/
example :
    let e : Env Nat (List Nat) :=
      ⟨id, fun k i => decide (¬ (1 ∈ k) ∧ ¬ (1 ≤ i ∧ 2 ∈ k ∧ 5 ∈ k)), id, false, 2, false⟩
    (match drddmin e 64 [1, 2, 3, 4, 5, 6] [1, 2] [1] 2 (fun _ => []) with
      | .ok (r, _) => some r | _ => none) = some [[1], [2, 5]] := by decide +kernel

/-- C42: with `INTERFLOP_DD_DICHO_GRANULARITY=1`, a value the tool accepts, the dichotomy
of any failing configuration of two deltas or more never ends. -/
theorem C42_granularity_one_diverges {e : Env α K} {B : Nat} (h : Setup e B) {N : Nat}
    (hN : N ≤ B) {deltas : List α} (h2 : 2 ≤ deltas.length) (d : Disk K) (hg : Good e B d)
    (hall : ∃ i < e.nbRUN, e.sample (e.name deltas) i = false) :
    ∀ fuel, splitDeltas e fuel deltas N 1 d = .fuel := by
  obtain ⟨v, d1, h1, t1, -⟩ := h.test h.nb deltas hg
  have hv : v = .fail := by
    cases v with
    | fail => rfl
    | pass =>
      obtain ⟨i, hi, h'⟩ := hall
      rw [t1.good.passes (t1.pass rfl) i hi] at h'; cases h'
  subst hv
  have hf := t1.fail rfl
  obtain ⟨v, d2, h3, -, hfl⟩ := h.test hN deltas t1.good
  obtain ⟨rfl, rfl⟩ := hfl hf
  have hcut : (min (1 : Int) deltas.length).toNat = 1 := by omega
  have hsp : split deltas 1 = [deltas] := by simp [split_succ, split_zero]
  have hne1 : deltas.length ≠ 1 := by omega
  have loop : ∀ fuel, splitDLoop e N 1 deltas.length fuel [deltas] [] d2 = .fuel := by
    intro fuel
    induction fuel with
    | zero => rfl
    | succ f ih =>
      simp [splitDLoop, treatFailed, hcut, hsp, treatLoop, h3, hne1, ih]
  intro fuel
  simp [splitDeltas, h1, loop]

end Verif.Ddtool
