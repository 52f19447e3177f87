import Verif.Precexp.SearchProps

/-!
# C62: the exploration of `vfc_precexp`
-/

namespace Verif.Precexp
open Verif Verif.Vfi

/-! ## Cells -/

theorem modify_modify {α} (f g : α → α) : ∀ (l : List α) (i : Nat), (l.modify i f).modify i g = l.modify i (g ∘ f)
  | [], i => by simp
  | a :: l, 0 => by simp
  | a :: l, i + 1 => by simp [modify_modify f g l i]

theorem modify_comm {α} (f g : α → α) : ∀ (l : List α) (i j : Nat), i ≠ j →
    (l.modify i f).modify j g = (l.modify j g).modify i f
  | [], i, j, _ => by simp
  | a :: l, 0, 0, h => absurd rfl h
  | a :: l, 0, j + 1, _ => by simp
  | a :: l, i + 1, 0, _ => by simp
  | a :: l, i + 1, j + 1, h => by simp [modify_comm f g l i j (by omega)]

theorem modify_self {α} (f : α → α) : ∀ (l : List α) (i : Nat), (∀ a, l[i]? = some a → f a = a) → l.modify i f = l
  | [], i, _ => by simp
  | a :: l, 0, h => by simp [h a rfl]
  | a :: l, i + 1, h => by simp [modify_self f l i (by simpa using h)]

theorem put_put (st : St) (c : Cell) (v w : Int) : (st.put v c).put w c = st.put w c := by
  cases c with
  | op i f => simp only [St.put, modify_modify]; congr 2; funext r; cases f <;> rfl
  | arg j f => simp only [St.put, modify_modify]; congr 2; funext r; cases f <;> rfl

theorem put_comm (st : St) (c d : Cell) (v w : Int) (h : c ≠ d) : (st.put v c).put w d = (st.put w d).put v c := by
  cases c with
  | op i f =>
    cases d with
    | op j g =>
      by_cases hij : i = j
      · subst hij
        simp only [St.put, modify_modify]; congr 2; funext r; cases f <;> cases g <;> first | rfl | exact absurd rfl h
      · simp only [St.put, modify_comm _ _ _ _ _ hij]
    | arg j g => rfl
  | arg i f =>
    cases d with
    | op j g => rfl
    | arg j g =>
      by_cases hij : i = j
      · subst hij
        simp only [St.put, modify_modify]; congr 2; funext r; cases f <;> cases g <;> first | rfl | exact absurd rfl h
      · simp only [St.put, modify_comm _ _ _ _ _ hij]

theorem put_get (st : St) (c : Cell) (x : Int) (h : st.get c = some x) : st.put x c = st := by
  cases c with
  | op i f =>
    simp only [St.get, Option.map_eq_some_iff] at h
    obtain ⟨r, hr, hx⟩ := h
    simp only [St.put]
    rw [modify_self _ _ _ (fun a ha => ?_)]
    obtain rfl : r = a := by rw [hr] at ha; exact Option.some.inj ha
    cases f <;> simp only [OpField.get] at hx <;> subst hx <;> rfl
  | arg i f =>
    simp only [St.get, Option.map_eq_some_iff] at h
    obtain ⟨r, hr, hx⟩ := h
    simp only [St.put]
    rw [modify_self _ _ _ (fun a ha => ?_)]
    obtain rfl : r = a := by rw [hr] at ha; exact Option.some.inj ha
    cases f <;> simp only [ArgField.get] at hx <;> subst hx <;> rfl

theorem get_put (st : St) (c : Cell) (x v : Int) (h : st.get c = some x) : (st.put v c).get c = some v := by
  cases c with
  | op i f =>
    simp only [St.get, Option.map_eq_some_iff] at h
    obtain ⟨r, hr, hx⟩ := h
    simp only [St.put, St.get, List.getElem?_modify, hr]
    cases f <;> simp [OpField.get, OpField.put]
  | arg i f =>
    simp only [St.get, Option.map_eq_some_iff] at h
    obtain ⟨r, hr, hx⟩ := h
    simp only [St.put, St.get, List.getElem?_modify, hr]
    cases f <;> simp [ArgField.get, ArgField.put]

theorem get_put_ne (st : St) (c d : Cell) (v : Int) (h : c ≠ d) : (st.put v c).get d = st.get d := by
  cases c with
  | op i f =>
    cases d with
    | op j g =>
      simp only [St.put, St.get, List.getElem?_modify]
      by_cases hij : i = j
      · subst hij
        cases hr : st.ops[i]? <;> simp
        cases f <;> cases g <;> first | rfl | exact absurd rfl h
      · simp [hij]
    | arg j g => rfl
  | arg i f =>
    cases d with
    | op j g => rfl
    | arg j g =>
      simp only [St.put, St.get, List.getElem?_modify]
      by_cases hij : i = j
      · subst hij
        cases hr : st.args[i]? <;> simp
        cases f <;> cases g <;> first | rfl | exact absurd rfl h
      · simp [hij]

/-! ## Explorations -/

/-- The cell of an action. -/
def Act.cell : Act → Cell
  | .search c _ _ => c
  | .put c _ => c

/-- What a plan starts from: fields to be searched hold their upper bound, assigned fields exist. -/
def Ready (st : St) : Act → Prop
  | .search c lo hi => lo ≤ hi ∧ st.get c = some (hi : Int)
  | .put c _ => ∃ x, st.get c = some x

/-- The program does not depend on the cells that are assigned without a run. -/
def Indifferent (ok : St → Bool) (plan : List Act) : Prop :=
  ∀ c v, Act.put c v ∈ plan → ∀ st w, ok (st.put w c) = ok st

/-- More precision, up to the upper bound, never hurts. -/
def Monotone (ok : St → Bool) (plan : List Act) : Prop :=
  ∀ c lo hi, Act.search c lo hi ∈ plan → ∀ (st : St) (x v : Int), st.get c = some x → x ≤ hi → v ≤ x → ok (st.put v c) = true → ok st = true

/-- `explore` leaves the cells outside the plan alone. -/
theorem explore_get (chk : Nat → St → Bool) (fuel : Nat) (c : Cell) : ∀ (plan : List Act) (n : Nat) (st : St) (m : Nat) (st' : St),
    explore chk fuel plan n st = some (m, st') → c ∉ plan.map Act.cell → st'.get c = st.get c
  | [], n, st, m, st', h, _ => by
    simp only [explore, Option.some.injEq, Prod.mk.injEq] at h
    rw [h.2]
  | a :: plan, n, st, m, st', h, hc => by
    simp only [List.map_cons, List.mem_cons, not_or] at hc
    rw [explore, Option.bind_eq_some_iff] at h
    obtain ⟨⟨n1, st1⟩, h1, h2⟩ := h
    rw [explore_get chk fuel c plan _ _ _ _ h2 hc.2]
    cases a with
    | search d lo hi =>
      simp only [act, Option.map_eq_some_iff] at h1
      obtain ⟨vn, -, e⟩ := h1
      simp only [Prod.mk.injEq] at e
      rw [← e.2]; exact get_put_ne _ _ _ _ (fun e => hc.1 e.symm)
    | put d v =>
      simp only [act, Option.some.injEq, Prod.mk.injEq] at h1
      rw [← h1.2]; exact get_put_ne _ _ _ _ (fun e => hc.1 e.symm)

/-- **C62.**  For a deterministic program that accepts the initial configuration and does not
depend on the fields assigned without a run, every exploration ends, each of its searches within 6
iterations, and leaves a configuration that the program accepts, with each field within its
bounds. -/
theorem C62_accepted_partial (ok : St → Bool) (fuel : Nat) (plan : List Act) (hfuel : ∀ c lo hi, Act.search c lo hi ∈ plan → (hi - lo).size < fuel)
    (hnd : (plan.map Act.cell).Nodup) (hind : Indifferent ok plan) :
    ∀ (n : Nat) (st : St), (∀ a ∈ plan, Ready st a) → ok st = true →
    ∃ m st', explore (fun _ => ok) fuel plan n st = some (m, st') ∧ ok st' = true ∧
      ∀ c lo hi, Act.search c lo hi ∈ plan → ∃ v : Nat, st'.get c = some (v : Int) ∧ lo ≤ v ∧ v ≤ hi := by
  induction plan with
  | nil => exact fun n st _ h => ⟨n, st, rfl, h, by simp⟩
  | cons a plan ih =>
    intro n st hr hok
    simp only [List.map_cons, List.nodup_cons] at hnd
    have ih := ih (fun c lo hi h => hfuel c lo hi (by simp [h])) hnd.2 (fun c v h => hind c v (by simp [h]))
    have hready : ∀ (x : Int), ∀ b ∈ plan, Ready (st.put x a.cell) b := by
      intro x b hb
      have hne : a.cell ≠ b.cell := fun e => hnd.1 (by rw [e]; exact List.mem_map_of_mem hb)
      have := hr b (by simp [hb])
      cases b <;> simp only [Ready, Act.cell] at this hne ⊢ <;> rw [get_put_ne _ _ _ _ hne] <;> exact this
    cases a with
    | search c lo hi =>
      obtain ⟨hlh, hg⟩ := hr (.search c lo hi) (by simp)
      obtain ⟨v, m, e, h1, h2, h3, -, -⟩ := C61_search (fun v => ok (st.put v c)) fuel n lo hi hlh
        (by simpa [put_get st c hi hg] using hok) (hfuel c lo hi (by simp))
      obtain ⟨m', st', e', hok', hb⟩ := ih m (st.put v c) (hready v) h3
      refine ⟨m', st', ?_, hok', ?_⟩
      · rw [explore, act, e]; exact e'
      · intro d lo' hi' hd
        rcases List.mem_cons.1 hd with hd | hd
        · cases hd
          refine ⟨v, ?_, h1, h2⟩
          rw [explore_get _ _ c _ _ _ _ _ e' hnd.1, get_put st c _ _ hg]
        · exact hb d lo' hi' hd
    | put c v =>
      obtain ⟨m', st', e', hok', hb⟩ := ih n (st.put v c) (hready v) (by rw [hind c v (by simp)]; exact hok)
      refine ⟨m', st', ?_, hok', fun d lo' hi' hd => ?_⟩
      · rw [explore, act]; exact e'
      · rcases List.mem_cons.1 hd with hd | hd
        · cases hd
        · exact hb d lo' hi' hd

/-- Lowering other cells keeps a rejected value rejected. -/
theorem explore_rejected (ok : St → Bool) (fuel : Nat) (c : Cell) (w : Int) : ∀ (plan : List Act) (n : Nat) (st : St) (m : Nat) (st' : St),
    (∀ c lo hi, Act.search c lo hi ∈ plan → (hi - lo).size < fuel) → (plan.map Act.cell).Nodup → c ∉ plan.map Act.cell →
    Indifferent ok plan → Monotone ok plan → (∀ a ∈ plan, Ready st a) → ok st = true →
    explore (fun _ => ok) fuel plan n st = some (m, st') → ok (st.put w c) = false → ok (st'.put w c) = false
  | [], n, st, m, st', _, _, _, _, _, _, _, h, hw => by
    simp only [explore, Option.some.injEq, Prod.mk.injEq] at h
    rw [← h.2]; exact hw
  | a :: plan, n, st, m, st', hfuel, hnd, hc, hind, hm, hr, hok, h, hw => by
    simp only [List.map_cons, List.nodup_cons] at hnd
    simp only [List.map_cons, List.mem_cons, not_or] at hc
    have hready : ∀ (x : Int), ∀ b ∈ plan, Ready (st.put x a.cell) b := by
      intro x b hb
      have hne : a.cell ≠ b.cell := fun e => hnd.1 (by rw [e]; exact List.mem_map_of_mem hb)
      have := hr b (by simp [hb])
      cases b <;> simp only [Ready, Act.cell] at this hne ⊢ <;> rw [get_put_ne _ _ _ _ hne] <;> exact this
    have hrec := explore_rejected ok fuel c w plan
    cases a with
    | search d lo hi =>
      have hready : ∀ (x : Int), ∀ b ∈ plan, Ready (st.put x d) b := hready
      obtain ⟨hlh, hg⟩ := hr (.search d lo hi) (by simp)
      obtain ⟨v, m1, e, h1, h2, h3, -, -⟩ := C61_search (fun v => ok (st.put v d)) fuel n lo hi hlh
        (by simpa [put_get st d hi hg] using hok) (hfuel d lo hi (by simp))
      rw [explore, act, e] at h
      refine hrec _ _ _ _ (fun c lo hi h => hfuel c lo hi (by simp [h])) hnd.2 hc.2 (fun c v h => hind c v (by simp [h]))
        (fun c lo hi h => hm c lo hi (by simp [h])) (hready v) h3 h ?_
      by_contra hne
      have hcd : d ≠ c := fun e => hc.1 e.symm
      rw [put_comm _ _ _ _ _ hcd] at hne
      have := hm d lo hi (by simp) (st.put w c) hi v (by rw [get_put_ne _ _ _ _ (fun e => hcd e.symm)]; exact hg) le_rfl (by exact_mod_cast h2) (by simpa using hne)
      rw [hw] at this; exact absurd this (by decide)
    | put d v =>
      have hready : ∀ (x : Int), ∀ b ∈ plan, Ready (st.put x d) b := hready
      rw [explore, act] at h
      refine hrec _ _ _ _ (fun c lo hi h => hfuel c lo hi (by simp [h])) hnd.2 hc.2 (fun c v h => hind c v (by simp [h]))
        (fun c lo hi h => hm c lo hi (by simp [h])) (hready v) (by rw [hind d v (by simp)]; exact hok) h ?_
      have hcd : d ≠ c := fun e => hc.1 e.symm
      rw [put_comm _ _ _ _ _ hcd, hind d v (by simp)]; exact hw

/-- **C62.**  If moreover precision never hurts, the configuration that is left is a local
minimum: no searched field alone can be lowered, by any amount. -/
theorem C62_minimal_partial (ok : St → Bool) (fuel : Nat) (plan : List Act) (hfuel : ∀ c lo hi, Act.search c lo hi ∈ plan → (hi - lo).size < fuel)
    (hnd : (plan.map Act.cell).Nodup) (hind : Indifferent ok plan) (hm : Monotone ok plan) :
    ∀ (n : Nat) (st : St), (∀ a ∈ plan, Ready st a) → ok st = true →
    ∃ m st', explore (fun _ => ok) fuel plan n st = some (m, st') ∧ ok st' = true ∧
      ∀ c lo hi, Act.search c lo hi ∈ plan → ∃ v : Nat, st'.get c = some (v : Int) ∧ lo ≤ v ∧ v ≤ hi ∧
        ∀ w : Nat, lo ≤ w → w < v → ok (st'.put w c) = false := by
  induction plan with
  | nil => exact fun n st _ h => ⟨n, st, rfl, h, by simp⟩
  | cons a plan ih =>
    intro n st hr hok
    simp only [List.map_cons, List.nodup_cons] at hnd
    have hfuel' := fun c lo hi h => hfuel c lo hi (List.mem_cons_of_mem a h)
    have hind' : Indifferent ok plan := fun c v h => hind c v (List.mem_cons_of_mem a h)
    have hm' : Monotone ok plan := fun c lo hi h => hm c lo hi (List.mem_cons_of_mem a h)
    have ih := ih hfuel' hnd.2 hind' hm'
    have hready : ∀ (x : Int), ∀ b ∈ plan, Ready (st.put x a.cell) b := by
      intro x b hb
      have hne : a.cell ≠ b.cell := fun e => hnd.1 (by rw [e]; exact List.mem_map_of_mem hb)
      have := hr b (by simp [hb])
      cases b <;> simp only [Ready, Act.cell] at this hne ⊢ <;> rw [get_put_ne _ _ _ _ hne] <;> exact this
    cases a with
    | search c lo hi =>
      obtain ⟨hlh, hg⟩ := hr (.search c lo hi) (by simp)
      obtain ⟨v, m, e, h3, h1, h4⟩ := C61_minimum (fun v => ok (st.put v c)) fuel n lo hi hlh
        (by simpa [put_get st c hi hg] using hok) (hfuel c lo hi (by simp)) (fun v w hvw hwh hv => by
          refine hm c lo hi (by simp) (st.put w c) w v (get_put st c _ _ hg) (by exact_mod_cast hwh) (by exact_mod_cast hvw) ?_
          rw [put_put]; exact hv)
      obtain ⟨v', m1, e1, -, h2, -⟩ := C61_search (fun v => ok (st.put v c)) fuel n lo hi hlh
        (by simpa [put_get st c hi hg] using hok) (hfuel c lo hi (by simp))
      rw [e] at e1
      simp only [Option.some.injEq, Prod.mk.injEq] at e1
      obtain ⟨rfl, rfl⟩ := e1
      obtain ⟨m', st', e', hok', hb⟩ := ih m (st.put v c) (hready v) h3
      refine ⟨m', st', ?_, hok', ?_⟩
      · rw [explore, act, e]; exact e'
      · intro d lo' hi' hd
        rcases List.mem_cons.1 hd with hd | hd
        · cases hd
          refine ⟨v, ?_, h1, h2, fun w hw1 hw2 => ?_⟩
          · rw [explore_get _ _ c _ _ _ _ _ e' hnd.1, get_put st c _ _ hg]
          · refine explore_rejected ok fuel c w plan m (st.put v c) m' st' hfuel' hnd.2 hnd.1 hind' hm' (hready v) h3 e' ?_
            rw [put_put]; exact h4 w hw1 hw2
        · exact hb d lo' hi' hd
    | put c v =>
      obtain ⟨m', st', e', hok', hb⟩ := ih n (st.put v c) (hready v) (by rw [hind c v (by simp)]; exact hok)
      refine ⟨m', st', ?_, hok', fun d lo' hi' hd => ?_⟩
      · rw [explore, act]; exact e'
      · rcases List.mem_cons.1 hd with hd | hd
        · cases hd
        · exact hb d lo' hi' hd

/-! ## The three modes -/

/-- The frames of a profile: a function appears once, with the precisions VPREC gives to a function
met for the first time (interflop_vprec_function_instrumentation.c:424-436, 564-582).
Pointers to `float` are left out. -/
structure Fresh (st : St) : Prop where
  ids : (st.ops.map OpRow.id).Nodup
  ops : ∀ r ∈ st.ops, r.prec64 = 52 ∧ r.range64 = 11 ∧ r.prec32 = 23 ∧ r.range32 = 8
  floats : ∀ a ∈ st.args, a.ty = 0 ∨ a.ty = 2 → a.prec = 23 ∧ a.range = 8
  doubles : ∀ a ∈ st.args, a.ty = 1 ∨ a.ty = 3 → a.prec = 52 ∧ a.range = 11

/-- The plans of the three modes. -/
def IsPlan (st : St) (plan : List Act) : Prop := plan = planOps st ∨ plan = planArgs st ∨ plan = planAll st

theorem mem_argsOf {st : St} {r : OpRow} {a : Act} (h : a ∈ argsOf st r) :
    ∃ j x, st.args[j]? = some x ∧ x.id = r.id ∧ a ∈ minArgs j x := by
  simp only [argsOf, List.mem_flatMap, Prod.exists] at h
  obtain ⟨x, j, hx, ha⟩ := h
  rw [List.mk_mem_zipIdx_iff_getElem?] at hx
  split at ha
  · exact ⟨j, x, hx, ‹_›, ha⟩
  · simp at ha

theorem minArgs_cell {j : Nat} {x : ArgRow} {a : Act} (h : a ∈ minArgs j x) : ∃ f, a.cell = .arg j f := by
  unfold minArgs at h
  split at h
  · simp at h; rcases h with rfl | rfl <;> exact ⟨_, rfl⟩
  · split at h
    · simp at h; rcases h with rfl | rfl <;> exact ⟨_, rfl⟩
    · simp at h

theorem minOps_cell {i : Nat} {r : OpRow} {a : Act} (h : a ∈ minOps i r) : ∃ f, a.cell = .op i f := by
  unfold minOps at h
  rw [List.mem_append] at h
  rcases h with h | h <;> split at h <;> simp at h <;> rcases h with rfl | rfl <;> exact ⟨_, rfl⟩

theorem plan_sub {st : St} {plan : List Act} (h : IsPlan st plan) : plan.Sublist (planAll st) := by
  rcases h with rfl | rfl | rfl
  · unfold planOps planAll
    generalize st.ops.zipIdx = l
    induction l with
    | nil => simp
    | cons a l ih => simp only [List.flatMap_cons]; exact (List.sublist_append_right _ _).append ih
  · have : planArgs st = st.ops.zipIdx.flatMap fun ri => argsOf st ri.1 := by
      unfold planArgs
      conv_lhs => rw [← List.zipIdx_map_fst 0 st.ops, List.flatMap_map]
    rw [this]; unfold planAll
    generalize st.ops.zipIdx = l
    induction l with
    | nil => simp
    | cons a l ih => simp only [List.flatMap_cons]; exact (List.sublist_append_left _ _).append ih
  · exact List.Sublist.refl _

theorem plan_bounds {st : St} {plan : List Act} (h : IsPlan st plan) (hf : Fresh st) : ∀ a ∈ plan, Ready st a := by
  intro a ha
  have ha := (plan_sub h).subset ha
  simp only [planAll, List.mem_flatMap, Prod.exists, List.mem_append] at ha
  obtain ⟨r, i, hr, ha⟩ := ha
  rw [List.mk_mem_zipIdx_iff_getElem?] at hr
  have hmem : r ∈ st.ops := List.mem_of_getElem? hr
  rcases ha with ha | ha
  · obtain ⟨j, x, hx, -, ha⟩ := mem_argsOf ha
    have hxm : x ∈ st.args := List.mem_of_getElem? hx
    unfold minArgs at ha
    split at ha
    · rename_i hty
      obtain ⟨h1, h2⟩ := hf.floats x hxm hty
      simp at ha
      rcases ha with rfl | rfl <;> simp [Ready, St.get, hx, ArgField.get, h1, h2]
    · split at ha
      · rename_i hty
        obtain ⟨h1, h2⟩ := hf.doubles x hxm hty
        simp at ha
        rcases ha with rfl | rfl <;> simp [Ready, St.get, hx, ArgField.get, h1, h2]
      · simp at ha
  · split at ha
    · obtain ⟨h1, h2, h3, h4⟩ := hf.ops r hmem
      unfold minOps at ha
      rw [List.mem_append] at ha
      rcases ha with ha | ha <;> split at ha <;> simp at ha <;> rcases ha with rfl | rfl <;>
        simp [Ready, St.get, hr, OpField.get, h1, h2, h3, h4]
    · simp at ha

theorem argsOf_nodup (st : St) (r : OpRow) : ((argsOf st r).map Act.cell).Nodup := by
  unfold argsOf
  rw [List.map_flatMap, List.nodup_flatMap]
  refine ⟨fun x _ => ?_, ?_⟩
  · split
    · unfold minArgs
      split
      · simp [Act.cell]
      · split <;> simp [Act.cell]
    · simp
  · rw [List.pairwise_iff_getElem]
    intro i j hi hj hij
    simp only [Function.onFun, List.Disjoint, List.getElem_zipIdx]
    intro c hc hd
    rw [List.mem_map] at hc hd
    obtain ⟨a, ha, rfl⟩ := hc
    obtain ⟨b, hb, hab⟩ := hd
    split at ha
    · split at hb
      · obtain ⟨f, hf⟩ := minArgs_cell ha
        obtain ⟨g, hg⟩ := minArgs_cell hb
        rw [hf, hg] at hab
        injection hab
        omega
      · simp at hb
    · simp at ha

theorem minOps_nodup (i : Nat) (r : OpRow) : ((minOps i r).map Act.cell).Nodup := by
  unfold minOps
  split <;> split <;> simp [Act.cell]

theorem plan_nodup {st : St} {plan : List Act} (h : IsPlan st plan) (hf : Fresh st) : (plan.map Act.cell).Nodup := by
  refine List.Nodup.sublist ((plan_sub h).map _) ?_
  unfold planAll
  rw [List.map_flatMap, List.nodup_flatMap]
  refine ⟨fun x _ => ?_, ?_⟩
  · rw [List.map_append, List.nodup_append]
    refine ⟨argsOf_nodup _ _, ?_, ?_⟩
    · split
      · exact minOps_nodup _ _
      · simp
    · intro c hc d hd hcd
      rw [List.mem_map] at hc hd
      obtain ⟨a, ha, rfl⟩ := hc
      obtain ⟨b, hb, rfl⟩ := hd
      obtain ⟨j, y, -, -, ha⟩ := mem_argsOf ha
      obtain ⟨f, hf⟩ := minArgs_cell ha
      split at hb
      · obtain ⟨g, hg⟩ := minOps_cell hb
        rw [hf, hg] at hcd
        exact absurd hcd (by simp)
      · simp at hb
  · rw [List.pairwise_iff_getElem]
    intro i j hi hj hij
    simp only [Function.onFun, List.Disjoint, List.getElem_zipIdx]
    have hi' : i < st.ops.length := by simpa using hi
    have hj' : j < st.ops.length := by simpa using hj
    have hne : st.ops[i].id ≠ st.ops[j].id := by
      have := List.pairwise_iff_getElem.1 hf.ids i j (by simpa using hi') (by simpa using hj') hij
      simpa using this
    intro c hc hd
    rw [List.mem_map] at hc hd
    obtain ⟨a, ha, rfl⟩ := hc
    obtain ⟨b, hb, hab⟩ := hd
    rw [List.mem_append] at ha hb
    have hA : ∀ {k : Nat} {r : OpRow} {a : Act}, (a ∈ argsOf st r ∨ a ∈ (if compiled r = true then minOps k r else [])) →
        (∃ p f x, a.cell = .arg p f ∧ st.args[p]? = some x ∧ x.id = r.id) ∨ ∃ f, a.cell = .op k f := by
      intro k r a h
      rcases h with h | h
      · obtain ⟨p, x, h1, h2, h3⟩ := mem_argsOf h
        obtain ⟨f, hf⟩ := minArgs_cell h3
        exact Or.inl ⟨p, f, x, hf, h1, h2⟩
      · split at h
        · exact Or.inr (minOps_cell h)
        · simp at h
    rcases hA ha with ⟨p, f, x, h1, h2, h3⟩ | ⟨f, h1⟩ <;> rcases hA hb with ⟨q, g, y, k1, k2, k3⟩ | ⟨g, k1⟩ <;> rw [h1, k1] at hab
    · injection hab with e1 e2
      subst e1
      rw [h2] at k2
      cases k2
      exact hne (h3.symm.trans k3)
    · exact absurd hab (by simp)
    · exact absurd hab (by simp)
    · injection hab with e1 e2
      omega

theorem plan_fuel {st : St} {plan : List Act} (h : IsPlan st plan) : ∀ c lo hi, Act.search c lo hi ∈ plan → (hi - lo).size < 7 := by
  intro c lo hi ha
  have ha := (plan_sub h).subset ha
  simp only [planAll, List.mem_flatMap, Prod.exists, List.mem_append] at ha
  obtain ⟨r, i, -, ha⟩ := ha
  have h51 : (52 - 1 : Nat).size < 7 := by decide +kernel
  have hle : hi - lo ≤ 51 := by
    rcases ha with ha | ha
    · obtain ⟨j, x, -, -, ha⟩ := mem_argsOf ha
      unfold minArgs at ha
      split at ha
      · simp at ha; rcases ha with ⟨-, rfl, rfl⟩ | ⟨-, rfl, rfl⟩ <;> omega
      · split at ha
        · simp at ha; rcases ha with ⟨-, rfl, rfl⟩ | ⟨-, rfl, rfl⟩ <;> omega
        · simp at ha
    · split at ha
      · unfold minOps at ha
        rw [List.mem_append] at ha
        rcases ha with ha | ha <;> split at ha <;> simp at ha <;> rcases ha with ⟨-, rfl, rfl⟩ | ⟨-, rfl, rfl⟩ <;> omega
      · simp at ha
  exact lt_of_le_of_lt (Nat.size_le_size hle) h51

/-- **C62 for the tool.**  In each of the three modes, on the frames of a fresh profile, for a
deterministic program that accepts full precision, does not depend on the fields assigned without
a run, and is never hurt by precision: the exploration ends with a configuration that the program
accepts and where no searched field can be lowered.  Missing: frames with pointers to `float`
(`C62_pointer_wrong`); programs that depend on the fields assigned without a run
(`C62_unchecked_wrong`). -/
theorem C62_explore_partial (ok : St → Bool) (st : St) (plan : List Act) (hp : IsPlan st plan) (hf : Fresh st)
    (hind : Indifferent ok plan) (hm : Monotone ok plan) (hok : ok st = true) :
    ∃ m st', explore (fun _ => ok) 7 plan 0 st = some (m, st') ∧ ok st' = true ∧
      ∀ c lo hi, Act.search c lo hi ∈ plan → ∃ v : Nat, st'.get c = some (v : Int) ∧ lo ≤ v ∧ v ≤ hi ∧
        ∀ w : Nat, lo ≤ w → w < v → ok (st'.put w c) = false :=
  C62_minimal_partial ok 7 plan (plan_fuel hp) (plan_nodup hp hf) hind hm 0 st (plan_bounds hp hf) hok

/-- A profile with a function that uses both precisions, a library function and a `double`
argument. -/
def exFrames : St :=
  ⟨[⟨"a.c/main/f/12/1".toList, 0, 0, 1, 1, 52, 11, 23, 8, 1, 0, 3⟩, ⟨"a.c/f/sin/7/2".toList, 1, 0, 0, 1, 52, 11, 23, 8, 0, 0, 1⟩],
   [⟨"a.c/main/f/12/1".toList, "x".toList, 0, 0, "input:".toList, 1, 52, 11, -3, 4, 3⟩]⟩

example : Fresh exFrames where
  ids := by decide
  ops := by decide
  floats := by decide
  doubles := by decide

/-- A program that needs 30 bits in all for the argument and the operations in double. -/
def exOk (st : St) : Bool :=
  match st.get (.op 0 .prec64), st.get (.arg 0 .prec) with
  | some p, some q => decide (30 ≤ p + q)
  | _, _ => false

example : (explore (fun _ => exOk) 7 (planAll exFrames) 0 exFrames).map (fun r => (r.1, r.2.get (.arg 0 .prec), r.2.get (.op 0 .prec64),
    r.2.get (.op 0 .range32))) = some (13, some 1, some 29, some 2) := by decide +kernel

/-- **C62, negation: pointers.**  The types of the profile are those of `enum FTYPES`
(interflop.h:48-56): a pointer to `float` is explored as a `double`, up to 52 bits, and a pointer
to `double` is not explored at all. -/
theorem C62_pointer_wrong (j : Nat) (a : ArgRow) : (a.ty = FTy.floatPtr.code → Act.search (.arg j .prec) 1 52 ∈ minArgs j a) ∧
    (a.ty = FTy.doublePtr.code → minArgs j a = []) := by
  constructor <;> intro h <;> simp [minArgs, h, FTy.code]

/-- **C62, negation: fields assigned without a run.**  The program of this example accepts the
initial configuration and needs 10 bits in double; the function that is explored does not claim to
use doubles; the configuration that is left is rejected. -/
theorem C62_unchecked_wrong : ∃ (ok : St → Bool) (st : St), Fresh st ∧ ok st = true ∧ Monotone ok (planOps st) ∧
    ∃ st', explore (fun _ => ok) 7 (planOps st) 0 st = some (0, st') ∧ ok st' = false := by
  let st : St := ⟨[⟨"a.c/main/f/12/1".toList, 0, 0, 0, 0, 52, 11, 23, 8, 0, 0, 3⟩], []⟩
  have hplan : planOps st = [.put (.op 0 .prec64) 1, .put (.op 0 .range64) 2, .put (.op 0 .prec32) 1, .put (.op 0 .range32) 2] := by
    decide
  refine ⟨fun st => match st.get (.op 0 .prec64) with
    | some p => decide (10 ≤ p)
    | none => false, st, ⟨by decide, by decide, by decide, by decide⟩, by decide, ?_,
    ⟨[⟨"a.c/main/f/12/1".toList, 0, 0, 0, 0, 1, 2, 1, 2, 0, 0, 3⟩], []⟩, by decide +kernel, by decide +kernel⟩
  rw [hplan]
  intro c lo hi h
  simp at h

/-- **C62, what is explored.**  Operations: in the modes "operations" and "all" the fields of each
format used by a function that is neither of a library nor an intrinsic are searched over the whole
range of the format; no other search on operations is made. -/
theorem C62_operations (st : St) (plan : List Act) (hp : plan = planOps st ∨ plan = planAll st) (i : Nat) (f : OpField) (lo hi : Nat) :
    Act.search (.op i f) lo hi ∈ plan ↔ ∃ r, st.ops[i]? = some r ∧ r.lib = 0 ∧ r.intr = 0 ∧
      (r.double ≠ 0 ∧ (f = .prec64 ∧ lo = 1 ∧ hi = 52 ∨ f = .range64 ∧ lo = 2 ∧ hi = 11) ∨
       r.float ≠ 0 ∧ (f = .prec32 ∧ lo = 1 ∧ hi = 23 ∨ f = .range32 ∧ lo = 2 ∧ hi = 8)) := by
  have hmin : ∀ (k : Nat) (r : OpRow), Act.search (.op i f) lo hi ∈ minOps k r ↔ k = i ∧
      (r.double ≠ 0 ∧ (f = .prec64 ∧ lo = 1 ∧ hi = 52 ∨ f = .range64 ∧ lo = 2 ∧ hi = 11) ∨
       r.float ≠ 0 ∧ (f = .prec32 ∧ lo = 1 ∧ hi = 23 ∨ f = .range32 ∧ lo = 2 ∧ hi = 8)) := by
    intro k r
    unfold minOps
    by_cases hd : r.double = 0 <;> by_cases hf : r.float = 0 <;> simp [hd, hf] <;> grind
  have harg : ∀ r : OpRow, Act.search (.op i f) lo hi ∉ argsOf st r := by
    intro r h
    unfold argsOf minArgs at h
    simp only [List.mem_flatMap] at h
    obtain ⟨aj, -, h⟩ := h
    split_ifs at h <;> simp at h
  have hmem : ∀ ri : OpRow × Nat, ri ∈ st.ops.zipIdx ↔ st.ops[ri.2]? = some ri.1 := by
    rintro ⟨r, k⟩; exact List.mk_mem_zipIdx_iff_getElem?
  have key : Act.search (.op i f) lo hi ∈ plan ↔ ∃ ri ∈ st.ops.zipIdx, compiled ri.1 = true ∧ Act.search (.op i f) lo hi ∈ minOps ri.2 ri.1 := by
    rcases hp with rfl | rfl
    · unfold planOps
      rw [List.mem_flatMap]
      refine exists_congr fun ri => and_congr_right fun _ => ?_
      split_ifs with h <;> simp [h]
    · unfold planAll
      rw [List.mem_flatMap]
      refine exists_congr fun ri => and_congr_right fun _ => ?_
      rw [List.mem_append]
      split_ifs with h <;> simp [h, harg]
  rw [key]
  constructor
  · rintro ⟨⟨r, k⟩, hm, hc, h⟩
    rw [hmin] at h
    obtain ⟨rfl, h⟩ := h
    simp only [compiled, Bool.and_eq_true, beq_iff_eq] at hc
    exact ⟨r, (hmem _).1 hm, hc.1, hc.2, h⟩
  · rintro ⟨r, hr, h1, h2, h⟩
    exact ⟨(r, i), (hmem _).2 hr, by simp [compiled, h1, h2], (hmin _ _).2 ⟨rfl, h⟩⟩

/-- **C62, what is explored.**  Arguments: in the modes "arguments" and "all" the fields of each
`float` or `double` argument of a function of the frame are searched over the whole range of its
format. -/
theorem C62_arguments (st : St) (plan : List Act) (hp : plan = planArgs st ∨ plan = planAll st) (j : Nat) (a : ArgRow)
    (ha : st.args[j]? = some a) (hr : ∃ r ∈ st.ops, r.id = a.id) :
    (a.ty = FTy.float.code → Act.search (.arg j .prec) 1 23 ∈ plan ∧ Act.search (.arg j .range) 2 8 ∈ plan) ∧
    (a.ty = FTy.double.code → Act.search (.arg j .prec) 1 52 ∈ plan ∧ Act.search (.arg j .range) 2 11 ∈ plan) := by
  have key : ∀ x ∈ minArgs j a, x ∈ plan := by
    intro x hx
    obtain ⟨r, hr, e⟩ := hr
    have h1 : x ∈ argsOf st r := by
      unfold argsOf
      rw [List.mem_flatMap]
      exact ⟨(a, j), List.mk_mem_zipIdx_iff_getElem?.2 ha, by rw [if_pos e.symm]; exact hx⟩
    rcases hp with rfl | rfl
    · exact List.mem_flatMap.2 ⟨r, hr, h1⟩
    · obtain ⟨k, hk⟩ := List.mem_iff_getElem?.1 hr
      exact List.mem_flatMap.2 ⟨(r, k), List.mk_mem_zipIdx_iff_getElem?.2 hk, List.mem_append_left _ h1⟩
  constructor <;> intro h <;> constructor <;> apply key <;> simp [minArgs, h, FTy.code]

example : Act.search (.op 0 .range32) 2 8 ∈ planAll exFrames ∧ Act.search (.arg 0 .prec) 1 52 ∈ planArgs exFrames ∧
    Act.search (.op 1 .prec64) 1 52 ∉ planOps exFrames := by decide +kernel

end Verif.Precexp
