import Mathlib.Tactic.Linarith
import Mathlib.Tactic.IntervalCases
import Verif.Hash.Props
import Verif.Wrapper.Ddebug

/-! # C32: the delta-debug filters select the listed call sites -/

namespace Verif.Wrapper
open Verif Verif.Hash

/-! ## The tables as sets of addresses -/

structure AddrSet (m : Map) (A : Finset Nat) : Prop where
  inv : m.Inv
  bnd : m.Bnd A.card
  rep : m.Rep (fun k => if k ∈ A then some k else none) A.card
  tomb : ∀ i, i < m.cap → (m.slots i).1 ≠ 1

theorem addrSet_create : AddrSet Map.create ∅ := by
  refine ⟨inv_create, ⟨?_, Or.inl rfl⟩, ?_, fun i _ => by simp [Map.create, zeros]⟩
  · have : cnt Map.create.nz Map.create.cap = 0 := empty_cnt 3
    rw [this]; simp
  · have := rep_empty 3
    simpa [Map.create] using this

theorem addrSet_insert (m : Map) (A : Finset Nat) (h : AddrSet m A) (a : Nat) (ha : 2 ≤ a) (hc : (insert a A).card ≤ 2 ^ 28) :
    ∃ m', m.insert a a = some m' ∧ AddrSet m' (insert a A) := by
  by_cases hm : a ∈ A
  · rw [Finset.insert_eq_of_mem hm] at hc ⊢
    exact ⟨m, insert_again m _ _ a a h.rep (by simp [hm]) h.inv (by have := h.bnd.small hc; omega) h.tomb, h⟩
  · have hcard := Finset.card_insert_of_notMem hm
    obtain ⟨m', e1, e2, e3⟩ := insert_fresh m _ _ a a h.rep (by
      intro k k' v h1 h2
      split at h1 <;> split at h2 <;> simp_all) (by omega) (by simp [hm]) (by
      intro k' hk'
      split at hk'
      · simp at hk'; subst hk'; contradiction
      · cases hk')
      h.inv
    obtain ⟨m'', f1, f2, f3⟩ := insert_inv m a a A.card h.inv h.bnd (by omega)
    rw [e1] at f1
    cases f1
    refine ⟨m', e1, f2, by rw [hcard]; exact f3, ?_, e3 h.tomb⟩
    rw [hcard]
    have : upd (fun k => if k ∈ A then some k else none) a (some a) = fun k => if k ∈ insert a A then some k else none := by
      funext k
      unfold upd
      by_cases hk : k = a
      · subst hk; simp
      · simp [hk]
    rw [this] at e2
    exact e2

theorem addrSet_have (m : Map) (A : Finset Nat) (h : AddrSet m A) (k : Nat) : m.have_ k = some (decide (k ∈ A)) := by
  by_cases hk : k ∈ A
  · obtain ⟨i, hi, hloc, hs⟩ := locate_found m _ _ k k h.rep (by simp [hk])
    have := (h.rep.val k k (by simp [hk])).1
    simp [Map.have_, hloc, hs, hk, this]
  · obtain ⟨v, hv, hv01⟩ := get_absent m _ _ k h.rep h.inv (by simp [hk])
    obtain ⟨i, hi⟩ := locate_total m k h.inv
    have hlt := (search_some _ _ _ _ (show search _ _ _ = some i from hi)).1
    have hne := h.tomb i hlt
    unfold Map.get at hv
    unfold Map.have_
    rw [hi] at hv ⊢
    simp only [Option.map_some, Option.some.injEq] at hv ⊢
    have : (m.slots i).1 = 0 := by
      rcases hv01 with h | h
      · rw [hv, h]
      · rw [hv, h] at hne; exact absurd rfl hne
    simp [this, hk]

theorem addrSet_fold (as : List Nat) (h5 : ∀ a ∈ as, a + 5 < 2 ^ 64) : ∀ (m : Map) (A : Finset Nat), AddrSet m A →
    A.card + as.length ≤ 2 ^ 28 → ∃ m', as.foldlM insertAddr m = some m' ∧ AddrSet m' (A ∪ (as.map (· + 5)).toFinset) := by
  induction as with
  | nil => intro m A h _; exact ⟨m, rfl, by simpa using h⟩
  | cons a as ih =>
    intro m A h hc
    have ha := h5 a (by simp)
    have hle := Finset.card_insert_le (a + 5) A
    obtain ⟨m1, e1, e2⟩ := addrSet_insert m A h (a + 5) (by omega) (by simp at hc; omega)
    obtain ⟨m2, f1, f2⟩ := ih (fun b hb => h5 b (by simp [hb])) m1 _ e2 (by simp at hc; omega)
    refine ⟨m2, ?_, ?_⟩
    · rw [List.foldlM_cons]
      have : insertAddr m a = some m1 := by
        unfold insertAddr callOpSize
        rw [Nat.mod_eq_of_lt ha]; exact e1
      rw [this]; exact f1
    · have : A ∪ ((a :: as).map (· + 5)).toFinset = insert (a + 5) A ∪ (as.map (· + 5)).toFinset := by
        ext x; simp
      rw [this]; exact f2

/-! ## Decisions -/

/-- The addresses of a filter: none if the variable is not set or the file is missing. -/
def listed (v : Option (Option (List Char))) : Outcome (List Nat) :=
  match v with
  | some (some t) => readAddrs t
  | _ => .ok []

theorem filterMap_spec (v : Option (Option (List Char))) (as : List Nat) (h : listed v = .ok as) (h5 : ∀ a ∈ as, a + 5 < 2 ^ 64) (hc : as.length ≤ 2 ^ 28) :
    ∃ m, filterMap v = .ok (some m) ∧ AddrSet m (as.map (· + 5)).toFinset := by
  rcases v with _ | _ | t
  · cases h; exact ⟨_, rfl, by simpa using addrSet_create⟩
  · cases h; exact ⟨_, rfl, by simpa using addrSet_create⟩
  · obtain ⟨m, e1, e2⟩ := addrSet_fold as h5 Map.create ∅ addrSet_create (by simpa using hc)
    refine ⟨m, ?_, by simpa using e2⟩
    unfold filterMap readFilter
    have h' : readAddrs t = .ok as := h
    simp only [h', Outcome.bind_ok, e1]

/-- Is the operation with return address `r` executed natively? -/
def native (e : DDEnv) (E I : List Nat) (r : Nat) : Bool :=
  (e.exclude.isSome && decide (r ∈ E.map (· + 5))) || (e.include_.isSome && decide (r ∉ I.map (· + 5)))

theorem run_spec (e : DDEnv) (E I : List Nat) (hgi : ¬ (e.include_.isSome = true ∧ e.generate = true)) (rs : List Nat) : ∀ (d : DD) (A : Finset Nat),
    d.excludeSet = e.exclude.isSome → d.includeSet = e.include_.isSome → d.generate = e.generate →
    AddrSet d.mustnot (E.map (· + 5)).toFinset → AddrSet d.must A → (e.include_.isSome = true → A = (I.map (· + 5)).toFinset) →
    (∀ r ∈ rs, 2 ≤ r) → (e.generate = true → (A ∪ (rs.filter fun r => !native e E I r).toFinset).card ≤ 2 ^ 28) →
    ∃ d', d.run rs = some (rs.map (native e E I), d') ∧
      AddrSet d'.must (if e.generate then A ∪ (rs.filter fun r => !native e E I r).toFinset else A) := by
  induction rs with
  | nil =>
    intro d A _ _ _ _ hm _ _ _
    refine ⟨d, rfl, ?_⟩
    split
    · simpa using hm
    · exact hm
  | cons r rs ih =>
    intro d A he hi hg hmn hm hA h2 hc
    rcases d with ⟨d1, d2, d3, dm, dn⟩
    simp only at he hi hg hmn hm
    subst he hi hg
    rw [DD.run, DD.step, addrSet_have _ _ hmn r, addrSet_have _ _ hm r]
    simp only
    have h2r := h2 r (by simp)
    have h2' : ∀ r ∈ rs, 2 ≤ r := fun x hx => h2 x (by simp [hx])
    by_cases hx : e.exclude.isSome = true ∧ r ∈ E.map (· + 5)
    · have hnat : native e E I r = true := by unfold native; simp only [hx.1, hx.2, decide_true, Bool.and_true, Bool.true_or]
      have hfl : List.filter (fun r => !native e E I r) (r :: rs) = List.filter (fun r => !native e E I r) rs := by
        rw [List.filter_cons_of_neg (by simp [hnat])]
      rw [hfl] at hc ⊢
      obtain ⟨d', f1, f2⟩ := ih ⟨e.exclude.isSome, e.include_.isSome, e.generate, dm, dn⟩ A rfl rfl rfl hmn hm hA h2' hc
      refine ⟨d', ?_, f2⟩
      rw [if_pos hx.1, Option.bind_some, if_pos (decide_eq_true (List.mem_toFinset.2 hx.2)), Option.bind_some, f1, List.map_cons, hnat]; rfl
    · have hex : (if e.exclude.isSome = true then some (decide (r ∈ (E.map (· + 5)).toFinset)) else some false) = some false := by
        split
        · rename_i h
          have : r ∉ (E.map (· + 5)).toFinset := fun hmem => hx ⟨h, by rwa [List.mem_toFinset] at hmem⟩
          simp only [this, decide_false]
        · rfl
      have hex2 : (e.exclude.isSome && decide (r ∈ E.map (· + 5))) = false := by
        rw [Bool.and_eq_false_iff]
        by_cases h : e.exclude.isSome = true
        · right; simp only [decide_eq_false_iff_not]; exact fun hmem => hx ⟨h, hmem⟩
        · left; simpa using h
      rw [hex]
      simp only [Option.bind_some, Bool.false_eq_true, if_false]
      by_cases hin : e.include_.isSome = true
      · have hgf : e.generate = false := by
          by_contra hcon; exact hgi ⟨hin, by simpa using hcon⟩
        have hnat : native e E I r = !decide (r ∈ A) := by
          unfold native
          rw [hex2, hin, hA hin]
          simp only [List.mem_toFinset, Bool.true_and, Bool.false_or, decide_not]
        obtain ⟨d', f1, f2⟩ := ih ⟨e.exclude.isSome, e.include_.isSome, e.generate, dm, dn⟩ A rfl rfl rfl hmn hm hA h2' (fun h => by rw [hgf] at h; cases h)
        refine ⟨d', ?_, by rw [hgf] at f2 ⊢; exact f2⟩
        rw [if_pos hin, Option.map_some, Option.bind_some, f1, List.map_cons, hnat]; rfl
      · have hnat : native e E I r = false := by
          unfold native
          rw [hex2]; simp [hin]
        rw [if_neg hin]
        by_cases hgen : e.generate = true
        · have hfl : List.filter (fun r => !native e E I r) (r :: rs) = r :: List.filter (fun r => !native e E I r) rs := by
            rw [List.filter_cons_of_pos (by simp [hnat])]
          rw [if_pos hgen]
          have hU : A ∪ (List.filter (fun r => !native e E I r) (r :: rs)).toFinset = insert r A ∪ (List.filter (fun r => !native e E I r) rs).toFinset := by
            rw [hfl]; ext x; simp
          have hc' := hc hgen
          rw [hU] at hc' ⊢
          have hle : (insert r A).card ≤ 2 ^ 28 := le_trans (Finset.card_le_card Finset.subset_union_left) hc'
          obtain ⟨m', e1, e2⟩ := addrSet_insert dm A hm r h2r hle
          obtain ⟨d', f1, f2⟩ := ih ⟨e.exclude.isSome, e.include_.isSome, e.generate, m', dn⟩ (insert r A) rfl rfl rfl hmn e2 (fun h => absurd h hin) h2' (fun _ => hc')
          refine ⟨d', ?_, by rw [if_pos hgen] at f2 ⊢; exact f2⟩
          rw [e1, Option.map_some, Option.bind_some, f1, List.map_cons, hnat]; rfl
        · obtain ⟨d', f1, f2⟩ := ih ⟨e.exclude.isSome, e.include_.isSome, e.generate, dm, dn⟩ A rfl rfl rfl hmn hm hA h2' (fun h => absurd h hgen)
          refine ⟨d', ?_, by rw [if_neg hgen] at f2 ⊢; exact f2⟩
          rw [if_neg hgen, Option.bind_some, f1, List.map_cons, hnat]; rfl

/-- **C32, decisions.**  With any exclude file listing addresses `E` and any include file listing
addresses `I`, along any run, the operation called from address `r - 5` is executed natively
exactly if an exclude variable is set and lists it, or an include variable is set and does not
list it. -/
theorem C32_decision (e : DDEnv) (E I : List Nat) (hE : listed e.exclude = .ok E) (hI : listed e.include_ = .ok I)
    (hgi : ¬ (e.include_.isSome = true ∧ e.generate = true))
    (hE5 : ∀ a ∈ E, a + 5 < 2 ^ 64) (hI5 : ∀ a ∈ I, a + 5 < 2 ^ 64) (hEn : E.length ≤ 2 ^ 28) (hIn : I.length ≤ 2 ^ 28)
    (rs : List Nat) (h2 : ∀ r ∈ rs, 2 ≤ r) (hcard : e.generate = true → rs.toFinset.card ≤ 2 ^ 28) :
    ∃ d d', ddInit e = .ok (some d) ∧ d.run rs = some (rs.map (fun r =>
      decide ((e.exclude.isSome ∧ ∃ a ∈ E, r = a + 5) ∨ (e.include_.isSome ∧ ¬ ∃ a ∈ I, r = a + 5))), d') := by
  obtain ⟨mi, a1, a2⟩ := filterMap_spec _ I hI hI5 hIn
  obtain ⟨me, b1, b2⟩ := filterMap_spec _ E hE hE5 hEn
  have hinit : ddInit e = .ok (some ⟨e.exclude.isSome, e.include_.isSome, e.generate, mi, me⟩) := by
    unfold ddInit; rw [if_neg hgi, a1, b1]; rfl
  obtain ⟨d', h1, -⟩ := run_spec e E I hgi rs ⟨e.exclude.isSome, e.include_.isSome, e.generate, mi, me⟩ _ rfl rfl rfl b2 a2 (fun _ => rfl) h2 (by
    intro hg
    have hi0 : I = [] := by
      have : e.include_ = none := by
        rcases h : e.include_ with _ | x
        · rfl
        · exact absurd ⟨by rw [h]; rfl, hg⟩ hgi
      rw [this] at hI; cases hI; rfl
    rw [hi0]
    refine le_trans (Finset.card_le_card ?_) (hcard hg)
    intro x; simp; tauto)
  refine ⟨_, d', hinit, ?_⟩
  rw [h1]
  congr 2
  apply List.map_congr_left
  intro r _
  unfold native
  rw [Bool.eq_iff_iff]
  simp only [Bool.or_eq_true, Bool.and_eq_true, decide_eq_true_eq, List.mem_map, @eq_comm _ r]

/-- Both options at once are refused. -/
theorem C32_exclusive (e : DDEnv) (h : e.include_.isSome = true) (hg : e.generate = true) : ddInit e = .exit := by
  unfold ddInit; rw [if_pos ⟨h, hg⟩]

/-! ## Generation -/

theorem hexDigit_hexChar (n : Nat) (h : n < 16) : hexDigit (hexChar n) = some n := by
  interval_cases n <;> decide

theorem hexRun_pad (k n acc : Nat) (t : List Char) : hexRun acc (hexPad k n ++ t) = hexRun (acc * 16 ^ k + n % 16 ^ k) t := by
  induction k generalizing acc with
  | zero => simp [hexPad, Nat.mod_one]
  | succ k ih =>
    rw [hexPad, List.cons_append, hexRun, hexDigit_hexChar _ (Nat.mod_lt _ (by norm_num))]
    simp only
    rw [ih]
    congr 1
    rw [pow_succ, Nat.mod_mul]
    ring

theorem hexPad_length (k n : Nat) : (hexPad k n).length = k := by
  induction k with
  | zero => rfl
  | succ k ih => simp [hexPad, ih]

theorem scan_line (width : Nat → Nat) (desc : Nat → List Char) (a : Nat) (ha : a < 2 ^ 64) (hw : 1 ≤ width a ∧ a < 16 ^ width a) :
    scanPtr (genLine width desc a) = some a := by
  unfold genLine scanPtr
  rw [List.dropWhile_cons_of_neg (by decide)]
  simp only
  have hrun := hexRun_pad (width a) a 0 (':' :: ' ' :: (desc a ++ ['\n']))
  rw [Nat.zero_mul, Nat.zero_add, Nat.mod_eq_of_lt hw.2] at hrun
  have hstop : ∀ t, hexRun a (':' :: t) = a := fun t => by rw [hexRun]; rfl
  rw [hstop] at hrun
  obtain ⟨k, hk⟩ : ∃ k, width a = k + 1 := ⟨width a - 1, by omega⟩
  rw [hk] at hrun ⊢
  rw [hexPad, List.cons_append] at hrun ⊢
  unfold hexNum
  simp only [hexDigit_hexChar _ (Nat.mod_lt (a / 16 ^ k) (by norm_num : 0 < 16)), Option.isSome_some, if_true]
  rw [hrun]
  congr 1
  omega

theorem fgets1_line (n : Nat) (l t : List Char) (hl : ∀ c ∈ l, c ≠ '\n') (hn : l.length < n) : fgets1 n (l ++ '\n' :: t) = (l ++ ['\n'], t) := by
  induction l generalizing n with
  | nil => cases n with
    | zero => simp at hn
    | succ n => simp [fgets1]
  | cons c l ih =>
    cases n with
    | zero => simp at hn
    | succ n =>
      rw [List.cons_append, fgets1, if_neg (hl c (by simp)), ih n (fun d hd => hl d (by simp [hd])) (by simpa using hn)]; rfl

/-- Descriptions that leave a line shorter than the buffer, without newline. -/
def ShortDesc (width : Nat → Nat) (desc : Nat → List Char) (a : Nat) : Prop :=
  (∀ c ∈ desc a, c ≠ '\n') ∧ width a + (desc a).length + 5 ≤ 2047

theorem hexPad_nonl (k n : Nat) : ∀ c ∈ hexPad k n, c ≠ '\n' := by
  induction k with
  | zero => simp [hexPad]
  | succ k ih =>
    intro c hc
    rw [hexPad, List.mem_cons] at hc
    rcases hc with rfl | h
    · have : n / 16 ^ k % 16 < 16 := Nat.mod_lt _ (by norm_num)
      interval_cases (n / 16 ^ k % 16) <;> decide
    · exact ih c h

theorem read_lines (width : Nat → Nat) (desc : Nat → List Char) (as : List Nat)
    (h : ∀ a ∈ as, a < 2 ^ 64 ∧ (1 ≤ width a ∧ a < 16 ^ width a) ∧ ShortDesc width desc a) : ∀ fuel, as.length < fuel →
    fileAddrs fuel (as.flatMap (genLine width desc)) = .ok as := by
  induction as with
  | nil => intro fuel hf; cases fuel <;> simp [fileAddrs]
  | cons a as ih =>
    intro fuel hf
    cases fuel with
    | zero => simp at hf
    | succ fuel =>
      obtain ⟨h1, h2, h3, h4⟩ := h a (by simp)
      have hline : genLine width desc a ++ as.flatMap (genLine width desc) =
          ('0' :: 'x' :: (hexPad (width a) a ++ (':' :: ' ' :: desc a))) ++ '\n' :: as.flatMap (genLine width desc) := by
        simp [genLine]
      have hg : fgets1 (lineSize - 1) (genLine width desc a ++ as.flatMap (genLine width desc)) = (genLine width desc a, as.flatMap (genLine width desc)) := by
        rw [hline, fgets1_line]
        · simp [genLine]
        · intro c hc
          simp only [List.mem_cons, List.mem_append] at hc
          rcases hc with rfl | rfl | hc | rfl | rfl | hc
          · decide
          · decide
          · exact hexPad_nonl _ _ c hc
          · decide
          · decide
          · exact h3 c hc
        · simp only [List.length_cons, List.length_append, hexPad_length, lineSize]; omega
      rw [List.flatMap_cons, fileAddrs, hg, scan_line width desc a h1 h2]
      rw [if_neg (by simp [genLine])]
      simp only [ih (fun b hb => h b (by simp [hb])) fuel (by simpa using hf), Outcome.bind_ok]

theorem nodup_filterMap {α β : Type} (f : α → Option β) (l : List α) (hl : l.Nodup)
    (hf : ∀ i ∈ l, ∀ j ∈ l, ∀ x, f i = some x → f j = some x → i = j) : (l.filterMap f).Nodup := by
  induction l with
  | nil => simp
  | cons a l ih =>
    rw [List.nodup_cons] at hl
    have ih' := ih hl.2 (fun i hi j hj => hf i (by simp [hi]) j (by simp [hj]))
    rcases h : f a with _ | b
    · rw [List.filterMap_cons_none h]; exact ih'
    · rw [List.filterMap_cons_some h, List.nodup_cons]
      refine ⟨?_, ih'⟩
      intro hmem
      obtain ⟨j, hj, hfj⟩ := List.mem_filterMap.1 hmem
      have := hf a (by simp) j (by simp [hj]) b h hfj
      exact hl.1 (this ▸ hj)

theorem gen_addrs (m : Map) (A : Finset Nat) (h : AddrSet m A) (hlo : ∀ a ∈ A, 5 ≤ a ∧ a < 2 ^ 64) :
    (genAddrs m).Nodup ∧ ∀ x, x ∈ genAddrs m ↔ x + 5 ∈ A := by
  have hval : ∀ i, i < m.cap → (m.slots i).1 ≠ 0 ∧ (m.slots i).1 ≠ 1 → (m.slots i).1 ∈ A ∧ (m.slots i).2 = (m.slots i).1 := by
    intro i hi hl
    have := h.rep.sound i hi (by unfold Map.live; simpa using hl)
    split at this
    · rename_i hk
      simp only [Option.some.injEq] at this
      exact ⟨this ▸ hk, this⟩
    · cases this
  constructor
  · unfold genAddrs
    refine nodup_filterMap _ _ List.nodup_range ?_
    intro i hi i' hi' x h1 h2
    simp only [Option.ite_none_right_eq_some, Option.some.injEq] at h1 h2
    rw [List.mem_range] at hi hi'
    obtain ⟨a1, a2⟩ := hval i hi h1.1
    obtain ⟨b1, b2⟩ := hval i' hi' h2.1
    apply h.rep.uniq i i' hi hi' (by unfold Map.live; simpa using h1.1) (by unfold Map.live; simpa using h2.1)
    rw [a2, b2]
    have ha := hlo _ a1
    have hb := hlo _ b1
    have e1 := h1.2
    have e2 := h2.2
    unfold callOpSize at e1 e2
    omega
  · intro x
    unfold genAddrs
    simp only [List.mem_filterMap, List.mem_range, Option.ite_none_right_eq_some, Option.some.injEq]
    constructor
    · rintro ⟨i, hi, hl, rfl⟩
      obtain ⟨hA, -⟩ := hval i hi hl
      have := hlo _ hA
      unfold callOpSize
      have e : ((m.slots i).1 + 2 ^ 64 - 5) % 2 ^ 64 + 5 = (m.slots i).1 := by omega
      rw [e]; exact hA
    · intro hx
      obtain ⟨j, hj, -⟩ := h.rep.found (x + 5) (x + 5) (by simp [hx])
      have hv := h.rep.val (x + 5) (x + 5) (by simp [hx])
      refine ⟨_, probe_lt m.nbits (start m.nbits (x + 5)) j, by rw [hj]; exact hv, ?_⟩
      rw [hj]
      have := hlo _ hx
      unfold callOpSize
      simp only
      omega

/-- **C32, generation.**  A run with the generate option writes to a fresh file, once each, the
addresses of exactly the call sites it executed through the backends; a later run with this
file as include file instruments exactly those.  The tool describing addresses is
arbitrary, provided lines fit the reader's buffer of 2048 bytes.  Missing: longer lines
(`C32_long_description`) and files that exist already (`C32_stale_sites`). -/
theorem C32_generate_partial (exclude : Option (Option (List Char))) (E : List Nat) (hE : listed exclude = .ok E) (hE5 : ∀ a ∈ E, a + 5 < 2 ^ 64)
    (hEn : E.length ≤ 2 ^ 28) (rs : List Nat) (hr : ∀ r ∈ rs, 5 ≤ r ∧ r < 2 ^ 64) (hcard : rs.toFinset.card ≤ 2 ^ 28)
    (width : Nat → Nat) (desc : Nat → List Char) (hdesc : ∀ r ∈ rs, (1 ≤ width (r - 5) ∧ r - 5 < 16 ^ width (r - 5)) ∧ ShortDesc width desc (r - 5)) :
    ∃ (d : DD) (dec : List Bool) (d' : DD) (as : List Nat), ddInit ⟨exclude, none, true⟩ = .ok (some d) ∧ d.run rs = some (dec, d') ∧
      genText width desc d'.must = as.flatMap (genLine width desc) ∧ as.Nodup ∧
      (∀ r, (∃ a ∈ as, r = a + 5) ↔ r ∈ rs ∧ ¬ (exclude.isSome ∧ ∃ a ∈ E, r = a + 5)) ∧
      ∀ rs', (∀ r ∈ rs', 2 ≤ r) → ∃ d1 d1', ddInit ⟨none, some (some (genText width desc d'.must)), false⟩ = .ok (some d1) ∧
        d1.run rs' = some (rs'.map (fun r => decide (¬ (r ∈ rs ∧ ¬ (exclude.isSome ∧ ∃ a ∈ E, r = a + 5)))), d1') := by
  obtain ⟨me, b1, b2⟩ := filterMap_spec _ E hE hE5 hEn
  have hinit : ddInit ⟨exclude, none, true⟩ = .ok (some ⟨exclude.isSome, false, true, Map.create, me⟩) := by
    unfold ddInit
    rw [if_neg (by simp)]
    simp only [b1]; rfl
  set e : DDEnv := ⟨exclude, none, true⟩ with he
  have hsub : (∅ ∪ (rs.filter fun r => !native e E [] r).toFinset) ⊆ rs.toFinset := by
    intro x; simp; tauto
  obtain ⟨d', h1, h2⟩ := run_spec e E [] (by simp [he]) rs ⟨exclude.isSome, false, true, Map.create, me⟩ ∅ rfl rfl rfl b2 addrSet_create
    (by simp [he]) (fun r hr' => by have := hr r hr'; omega) (fun _ => le_trans (Finset.card_le_card hsub) hcard)
  rw [if_pos rfl, Finset.empty_union] at h2
  rw [Finset.empty_union] at hsub
  set A := (rs.filter fun r => !native e E [] r).toFinset with hA
  have hAmem : ∀ r, r ∈ A ↔ r ∈ rs ∧ ¬ (exclude.isSome ∧ ∃ a ∈ E, r = a + 5) := by
    intro r
    rw [hA, List.mem_toFinset, List.mem_filter]
    have hnat : native e E [] r = true ↔ (exclude.isSome ∧ ∃ a ∈ E, r = a + 5) := by
      unfold native
      simp only [he, Option.isSome_none, Bool.false_and, Bool.or_false, Bool.and_eq_true, decide_eq_true_eq, List.mem_map, @eq_comm _ r]
    rw [Bool.not_eq_true', ← Bool.not_eq_true, hnat]
  have hAr : ∀ a ∈ A, a ∈ rs := fun a ha => ((hAmem a).1 ha).1
  obtain ⟨g1, g2⟩ := gen_addrs d'.must A h2 (fun a ha => hr a (hAr a ha))
  have hsite : ∀ r, (∃ a ∈ genAddrs d'.must, r = a + 5) ↔ r ∈ rs ∧ ¬ (exclude.isSome ∧ ∃ a ∈ E, r = a + 5) := by
    intro r
    rw [← hAmem]
    constructor
    · rintro ⟨a, ha, rfl⟩; exact (g2 a).1 ha
    · intro hr'
      have := hr r (hAr r hr')
      exact ⟨r - 5, (g2 _).2 (by rw [Nat.sub_add_cancel this.1]; exact hr'), by omega⟩
  refine ⟨_, _, d', genAddrs d'.must, hinit, h1, rfl, g1, hsite, ?_⟩
  intro rs' h2'
  have hread : readAddrs (genText width desc d'.must) = .ok (genAddrs d'.must) := by
    unfold readAddrs genText
    apply read_lines
    · intro a ha
      have hm := hAr _ ((g2 a).1 ha)
      have h3 := hr _ hm
      have h4 := hdesc _ hm
      rw [Nat.add_sub_cancel] at h4
      exact ⟨by omega, h4⟩
    · have : ∀ l : List Nat, l.length ≤ (l.flatMap (genLine width desc)).length := by
        intro l
        induction l with
        | nil => simp
        | cons a l ih => rw [List.flatMap_cons, List.length_append, List.length_cons]; simp only [genLine, List.length_cons]; omega
      have := this (genAddrs d'.must)
      omega
  have hlen : (genAddrs d'.must).length ≤ 2 ^ 28 := by
    have h3 : ((genAddrs d'.must).map (· + 5)).Nodup := g1.map (fun a b h => by simpa using h)
    have h4 : ((genAddrs d'.must).map (· + 5)).toFinset ⊆ rs.toFinset := by
      intro x hx
      rw [List.mem_toFinset, List.mem_map] at hx
      obtain ⟨a, ha, rfl⟩ := hx
      exact hsub ((g2 a).1 ha)
    have h5 := Finset.card_le_card h4
    rw [List.toFinset_card_of_nodup h3, List.length_map] at h5
    omega
  obtain ⟨d1, d1', k1, k2⟩ := C32_decision ⟨none, some (some (genText width desc d'.must)), false⟩ [] (genAddrs d'.must) rfl hread (by simp) (by simp)
    (fun a ha => (hr _ (hAr _ ((g2 a).1 ha))).2) (by simp) hlen rs' h2' (by simp)
  refine ⟨d1, d1', k1, ?_⟩
  rw [k2]
  congr 2
  apply List.map_congr_left
  intro r _
  rw [decide_eq_decide, ← hsite r]
  simp

/-! ## Where it fails -/

/-- **C32, counterexample**: the generated file is not truncated.  The sites of an older, longer
file stay included although the last generating run did not visit them. -/
theorem C32_stale_sites : ∃ old new : List Char, readAddrs new = .ok [0x401000] ∧ readAddrs old = .ok [0x402000, 0x403000, 0x404000] ∧
    readAddrs (overwrite old new) = .ok [0x401000, 0x403000, 0x404000] :=
  ⟨"0x402000: g at a.c:1\n0x403000: g at a.c:2\n0x404000: g at a.c:3\n".toList, "0x401000: f at a.c:9\n".toList, by decide +kernel⟩

/-- **C32, counterexample**: a description longer than the buffer (a C++ name) is read as two lines,
and the run stops, or takes the rest of the name for an address. -/
theorem C32_long_description : ∃ desc : Nat → List Char,
    readAddrs (genLine (fun _ => 6) desc 0x401000) = .exit ∧
    ∃ desc' : Nat → List Char, readAddrs (genLine (fun _ => 6) desc' 0x401000) = .ok [0x401000, 0xadd] :=
  ⟨fun _ => List.replicate 2100 'x', by decide +kernel, fun _ => List.replicate 2037 'x' ++ "add".toList, by decide +kernel⟩

/-- **C32, counterexample**: a misspelt include file is taken for an empty one: everything is
executed natively, without any message. -/
theorem C32_missing_include (rs : List Nat) (h2 : ∀ r ∈ rs, 2 ≤ r) :
    ∃ d d', ddInit ⟨none, some none, false⟩ = .ok (some d) ∧ d.run rs = some (rs.map (fun _ => true), d') := by
  obtain ⟨d, d', h1, h3⟩ := C32_decision ⟨none, some none, false⟩ [] [] rfl rfl (by simp) (by simp) (by simp) (by simp) (by simp) rs h2 (by simp)
  exact ⟨d, d', h1, by simpa using h3⟩

/-- Instances: three sites, one visited twice, one excluded. -/
example : ∃ d, ddInit ⟨some (some "0x401010: f at a.c:3\n".toList), none, true⟩ = .ok (some d) ∧
    (d.run [0x401005, 0x401015, 0x401025, 0x401005]).map (fun x => (x.1, genText (fun _ => 6) (fun _ => "f".toList) x.2.must)) =
      some ([false, true, false, false], "0x401000: f\n0x401020: f\n".toList) := ⟨_, rfl, by decide +kernel⟩

end Verif.Wrapper
