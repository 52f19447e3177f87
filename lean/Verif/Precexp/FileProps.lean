import Verif.Precexp.ExploreProps
import Verif.Vfi.FileProps

/-!
# C63: the files of `vfc_precexp`
-/

namespace Verif.Precexp
open Verif Verif.Vfi

/-! ## What VPREC makes of a configuration -/

/-- A row that can be written and read: a usable identifier, flags, numbers that fit `int`. -/
structure RowOk (r : OpRow) : Prop where
  id : Field 255 r.id
  lib : r.lib = 0 ∨ r.lib = 1
  intr : r.intr = 0 ∨ r.intr = 1
  float : r.float = 0 ∨ r.float = 1
  double : r.double = 0 ∨ r.double = 1
  p64 : IsInt r.prec64
  r64 : IsInt r.range64
  p32 : IsInt r.prec32
  r32 : IsInt r.range32
  nc : IsInt r.ncalls
  nin : 0 ≤ r.ninputs ∧ r.ninputs < 2 ^ 31
  nout : 0 ≤ r.noutputs ∧ r.noutputs < 2 ^ 31

/-- The same for arguments. -/
structure ArgOk (a : ArgRow) : Prop where
  io : Field 10 a.io
  id : Field 127 a.argId
  ty : IsInt a.ty
  prec : IsInt a.prec
  range : IsInt a.range

structure StOk (st : St) : Prop where
  ops : ∀ r ∈ st.ops, RowOk r
  args : ∀ a ∈ st.args, ArgOk a

/-- The record of VPREC for a row, with given arguments. -/
def OpRow.toFn (r : OpRow) (ins outs : Option (List ArgData)) : Fn :=
  ⟨⟨r.id, r.lib ≠ 0, r.intr ≠ 0, r.float ≠ 0, r.double ≠ 0⟩, r.prec64, r.range64, r.prec32, r.range32, ins, outs, r.ncalls⟩

theorem dec_flag {n : Int} (h : n = 0 ∨ n = 1) : dec n = decB (decide (n ≠ 0)) := by
  rcases h with rfl | rfl <;> rfl

theorem scanHeader_save (garbage rest : List Char) (r : OpRow) (h : RowOk r) :
    scanHeader garbage (saveOp r ++ rest) = .ok (some (r.toFn none none, r.ninputs, r.noutputs), rest) := by
  let d : ArgData := ⟨"x".toList, 0, 0, 0, 0, 0⟩
  have hd : d.Valid := ⟨⟨by decide, by decide, by decide, by decide⟩, by decide, by decide, by decide, by decide, by decide⟩
  let f : Fn := r.toFn (some (List.replicate r.ninputs.toNat d)) (some (List.replicate r.noutputs.toNat d))
  have e1 : ((f.inArgs.getD []).length : Int) = r.ninputs := by
    have := h.nin.1
    simp only [f, OpRow.toFn, Option.getD_some, List.length_replicate]; omega
  have e2 : ((f.outArgs.getD []).length : Int) = r.noutputs := by
    have := h.nout.1
    simp only [f, OpRow.toFn, Option.getD_some, List.length_replicate]; omega
  have hf : f.Valid := by
    refine ⟨h.id, h.p64, h.r64, h.p32, h.r32, h.nc, ?_, ?_, ?_, ?_⟩
    · intro x hx
      simp only [f, OpRow.toFn, Option.getD_some] at hx
      rw [List.eq_of_mem_replicate hx]; exact hd
    · intro x hx
      simp only [f, OpRow.toFn, Option.getD_some] at hx
      rw [List.eq_of_mem_replicate hx]; exact hd
    · have := h.nin.2; omega
    · have := h.nout.2; omega
  have hw : saveOp r = writeHeader f := by
    unfold saveOp writeHeader
    rw [e1, e2, dec_flag h.lib, dec_flag h.intr, dec_flag h.float, dec_flag h.double]
    rfl
  rw [hw, scanHeader_write garbage rest f hf, e1, e2]
  rfl

/-- An argument line of `save` has five fields: VPREC stops. -/
theorem scanArg_save (garbage rest : List Char) (a : ArgRow) (h : ArgOk a) :
    scanArg garbage (saveArg a ++ rest) = .exit := by
  have L : ∀ n, IsInt n → (dec n).length ≤ 11 := fun n hn => (field_dec n hn).len
  unfold scanArg saveArg
  rw [scanLine_tabbed 7 garbage _ rest (by simp) (by simp) (by
    intro x hx
    simp only [List.mem_cons, List.not_mem_nil, or_false] at hx
    rcases hx with rfl | rfl | rfl | rfl | rfl
    · exact h.io.mono (by norm_num)
    · exact h.id.mono (by norm_num)
    · exact (field_dec _ h.ty).mono (by norm_num)
    · exact (field_dec _ h.prec).mono (by norm_num)
    · exact (field_dec _ h.range).mono (by norm_num)) (by
    intro x hx
    simp at hx
    subst hx
    have := L _ h.range
    omega) (by
    have := h.id.len; have := h.io.len
    have a5 := L _ h.ty; have a6 := L _ h.prec; have a7 := L _ h.range
    simp only [lineLen, List.map_cons, List.map_nil, List.sum_cons, List.sum_nil]
    omega)]
  simp only [Outcome.bind_ok, lastNl]

theorem scanArgs_save (garbage rest : List Char) (a : ArgRow) (h : ArgOk a) (n : Nat) :
    scanArgs garbage (n + 1) (saveArg a ++ rest) = .exit := by
  rw [scanArgs, scanArg_save garbage rest a h]; rfl

theorem read_arguments (garbage : List Char) : ∀ (ops : List OpRow) (args : List ArgRow) (file : List Char) (fuel : Nat),
    (∀ r ∈ ops, RowOk r) → (∀ a ∈ args, ArgOk a) → (∃ r ∈ ops, 0 < r.ninputs + r.noutputs) → ops.length < fuel →
    save ops args = some file → readMap garbage fuel file = .exit
  | [], args, file, fuel, _, _, ⟨r, hr, _⟩, _, _ => by simp at hr
  | f :: fs, args, file, fuel, ho, ha, hex, hfuel, hs => by
    rw [save] at hs
    by_cases hlen : args.length < (f.ninputs + f.noutputs).toNat
    · rw [if_pos hlen] at hs; exact absurd hs (by simp)
    rw [if_neg hlen, Option.map_eq_some_iff] at hs
    obtain ⟨t, ht, rfl⟩ := hs
    have hf := ho f (by simp)
    obtain ⟨hi0, hi1⟩ := hf.nin
    obtain ⟨ho0, ho1⟩ := hf.nout
    rcases fuel with _ | fuel
    · simp at hfuel
    rw [readMap, List.append_assoc, scanHeader_save garbage _ f hf]
    simp only [Outcome.bind_ok]
    by_cases hn : 0 < f.ninputs + f.noutputs
    · rcases args with _ | ⟨a, args⟩
      · simp at hlen; omega
      obtain ⟨k, hk⟩ : ∃ k, (f.ninputs + f.noutputs).toNat = k + 1 := ⟨(f.ninputs + f.noutputs).toNat - 1, by omega⟩
      rw [hk, List.take_succ_cons, List.flatMap_cons, List.append_assoc]
      have haa := ha a (by simp)
      by_cases hin : f.ninputs = 0
      · obtain ⟨j, hj⟩ : ∃ j, f.noutputs.toNat = j + 1 := ⟨f.noutputs.toNat - 1, by omega⟩
        rw [hin, Int.toNat_zero, scanArgs]
        simp only [Outcome.bind_ok]
        rw [hj, scanArgs_save garbage _ a haa]; rfl
      · obtain ⟨j, hj⟩ : ∃ j, f.ninputs.toNat = j + 1 := ⟨f.ninputs.toNat - 1, by omega⟩
        rw [hj, scanArgs_save garbage _ a haa]; rfl
    · have e1 : f.ninputs = 0 := by omega
      have e2 : f.noutputs = 0 := by omega
      rw [e1, e2] at ht ⊢
      simp only [add_zero, Int.toNat_zero, List.take_zero, List.flatMap_nil, List.nil_append, List.drop_zero] at ht ⊢
      simp only [scanArgs, Outcome.bind_ok]
      have hex' : ∃ r ∈ fs, 0 < r.ninputs + r.noutputs := by
        obtain ⟨r, hr, h⟩ := hex
        rcases List.mem_cons.1 hr with rfl | hr
        · exact absurd h hn
        · exact ⟨r, hr, h⟩
      rw [read_arguments garbage fs args t fuel (fun r hr => ho r (by simp [hr])) ha hex' (by simpa using hfuel) ht]
      rfl

/-- **C63, negation.**  The configuration files of the tool have five fields per argument, VPREC
wants seven: whatever the program, a configuration with at least one argument is rejected. -/
theorem C63_arguments_wrong (garbage : List Char) (prog : List Fn → Bool) (n : Nat) (st : St) (h : StOk st)
    (ha : ∃ r ∈ st.ops, 0 < r.ninputs + r.noutputs) : check garbage prog n st = false := by
  unfold check
  rcases hs : save st.ops st.args with _ | file
  · rfl
  · simp only []
    rw [read_arguments garbage st.ops st.args file _ h.ops h.args ha (Nat.lt_succ_self _) hs]

theorem mem_modify {α} {f : α → α} {x : α} : ∀ {l : List α} {i : Nat}, x ∈ l.modify i f → x ∈ l ∨ ∃ y ∈ l, x = f y
  | [], i, h => by simp at h
  | a :: l, 0, h => by
    simp only [List.modify_zero_cons, List.mem_cons] at h
    rcases h with rfl | h
    · exact Or.inr ⟨a, by simp, rfl⟩
    · exact Or.inl (by simp [h])
  | a :: l, i + 1, h => by
    simp only [List.modify_succ_cons, List.mem_cons] at h
    rcases h with rfl | h
    · exact Or.inl (by simp)
    · rcases mem_modify h with h | ⟨y, hy, e⟩
      · exact Or.inl (by simp [h])
      · exact Or.inr ⟨y, by simp [hy], e⟩

theorem StOk.put {st : St} (h : StOk st) (c : Cell) {v : Int} (hv : IsInt v) : StOk (st.put v c) := by
  cases c with
  | op i f =>
    refine ⟨fun r hr => ?_, h.args⟩
    rcases mem_modify hr with hr | ⟨y, hy, rfl⟩
    · exact h.ops r hr
    · have := h.ops y hy
      cases f <;> exact ⟨this.1, this.2, this.3, this.4, this.5, by first | exact hv | exact this.6,
        by first | exact hv | exact this.7, by first | exact hv | exact this.8, by first | exact hv | exact this.9, this.10, this.11, this.12⟩
  | arg i f =>
    refine ⟨h.ops, fun r hr => ?_⟩
    rcases mem_modify hr with hr | ⟨y, hy, rfl⟩
    · exact h.args r hr
    · have := h.args y hy
      cases f <;> exact ⟨this.1, this.2, this.3, by first | exact hv | exact this.4, by first | exact hv | exact this.5⟩

theorem put_has {st : St} (h : ∃ r ∈ st.ops, 0 < r.ninputs + r.noutputs) (c : Cell) (v : Int) :
    ∃ r ∈ (st.put v c).ops, 0 < r.ninputs + r.noutputs := by
  obtain ⟨r, hr, hp⟩ := h
  cases c with
  | arg i f => exact ⟨r, hr, hp⟩
  | op i f =>
    obtain ⟨k, hk⟩ := List.getElem?_of_mem hr
    refine ⟨if i = k then f.put v r else r, ?_, ?_⟩
    · refine List.mem_of_getElem? (i := k) ?_
      simp only [St.put, List.getElem?_modify, hk]
      by_cases h : i = k <;> simp [h]
    · split
      · cases f <;> exact hp
      · exact hp

/-- The bounds and the values of a plan are small numbers. -/
theorem plan_small {st : St} {plan : List Act} (h : IsPlan st plan) : ∀ a ∈ plan, match a with
    | .search _ lo hi => lo ≤ hi ∧ hi ≤ 52
    | .put _ v => v ≤ 52 := by
  intro a ha
  have ha := (plan_sub h).subset ha
  simp only [planAll, List.mem_flatMap, Prod.exists, List.mem_append] at ha
  obtain ⟨r, i, -, ha⟩ := ha
  rcases ha with ha | ha
  · obtain ⟨j, x, -, -, ha⟩ := mem_argsOf ha
    unfold minArgs at ha
    split at ha
    · simp at ha; rcases ha with rfl | rfl <;> simp
    · split at ha
      · simp at ha; rcases ha with rfl | rfl <;> simp
      · simp at ha
  · split at ha
    · unfold minOps at ha
      rw [List.mem_append] at ha
      rcases ha with ha | ha <;> split at ha <;> simp at ha <;> rcases ha with rfl | rfl <;> simp
    · simp at ha

theorem explore_diverges (garbage : List Char) (prog : List Fn → Bool) (fuel : Nat) : ∀ (plan : List Act) (n : Nat) (st : St),
    (∀ a ∈ plan, match a with
      | .search _ lo hi => lo ≤ hi ∧ hi ≤ 52
      | .put _ v => v ≤ 52) →
    (∃ c lo hi, Act.search c lo hi ∈ plan) → StOk st → (∃ r ∈ st.ops, 0 < r.ninputs + r.noutputs) →
    explore (check garbage prog) fuel plan n st = none
  | [], _, _, _, ⟨_, _, _, h⟩, _, _ => by simp at h
  | a :: plan, n, st, hb, hex, hok, har => by
    have hsm : ∀ v : Nat, v ≤ 52 → IsInt (v : Int) := fun v hv => by unfold IsInt; omega
    have hb0 := hb a (by simp)
    cases a with
    | search c lo hi =>
      simp only at hb0
      rw [explore, act, C61_rejected_diverges _ lo hi hb0.1 (fun n v _ hv =>
        C63_arguments_wrong garbage prog n _ (hok.put c (hsm v (by omega))) (put_has har c v))]
      rfl
    | put c v =>
      simp only at hb0
      rw [explore, act]
      refine explore_diverges garbage prog fuel plan n _ (fun b hb' => hb b (by simp [hb'])) ?_ (hok.put c (hsm v hb0)) (put_has har c v)
      obtain ⟨d, lo, hi, h⟩ := hex
      rcases List.mem_cons.1 h with h | h
      · cases h
      · exact ⟨d, lo, hi, h⟩

/-- **C63 with C62, negation.**  On a profile where some function has an argument, the tool never
ends, whatever the program and the mode, as soon as it has something to search: every
configuration it writes is refused by VPREC. -/
theorem C63_arguments_diverge (garbage : List Char) (prog : List Fn → Bool) (st : St) (plan : List Act) (hp : IsPlan st plan)
    (hs : ∃ c lo hi, Act.search c lo hi ∈ plan) (hok : StOk st) (har : ∃ r ∈ st.ops, 0 < r.ninputs + r.noutputs) (fuel : Nat) :
    explore (check garbage prog) fuel plan 0 st = none :=
  explore_diverges garbage prog fuel plan 0 st (plan_small hp) hs hok har

example : StOk exFrames where
  ops := by
    intro r hr
    simp only [exFrames, List.mem_cons, List.not_mem_nil, or_false] at hr
    rcases hr with rfl | rfl <;>
      exact ⟨⟨by decide, by decide, by decide, by decide⟩, by decide, by decide, by decide, by decide, by decide, by decide, by decide,
        by decide, by decide, by decide, by decide⟩
  args := by
    intro a ha
    simp only [exFrames, List.mem_cons, List.not_mem_nil, or_false] at ha
    subst ha
    exact ⟨⟨by decide, by decide, by decide, by decide⟩, ⟨by decide, by decide, by decide, by decide⟩, by decide, by decide, by decide⟩

/-- **C63.**  Without arguments, VPREC reads the configuration that the exploration is at: the
verdict is that of the program under the records of the frame, in order.  Missing: arguments
(`C63_arguments_wrong`); the end of the file, as in C12. -/
theorem C63_operations_partial (garbage : List Char) (hg1 : (tok [] garbage).length < 12) (hg2 : ∀ t ∈ tok [] garbage, t.length ≤ 255)
    (prog : List Fn → Bool) (n : Nat) (st : St) (h : StOk st) (ha : ∀ r ∈ st.ops, r.ninputs = 0 ∧ r.noutputs = 0) :
    check garbage prog n st = prog (st.ops.map fun r => r.toFn (some []) (some [])) := by
  have key : ∀ (ops : List OpRow), (∀ r ∈ ops, RowOk r) → (∀ r ∈ ops, r.ninputs = 0 ∧ r.noutputs = 0) →
      save ops st.args = some (write (ops.map fun r => r.toFn (some []) (some []))) := by
    intro ops
    induction ops with
    | nil => intro _ _; rfl
    | cons r ops ih =>
      intro ho ha
      obtain ⟨e1, e2⟩ := ha r (by simp)
      have hr := ho r (by simp)
      rw [save]
      simp only [e1, e2, add_zero, Int.toNat_zero, Nat.not_lt_zero, if_false, List.drop_zero, List.take_zero, List.flatMap_nil, List.append_nil]
      rw [ih (fun x hx => ho x (by simp [hx])) (fun x hx => ha x (by simp [hx]))]
      simp only [Option.map_some, Option.some.injEq]
      have : saveOp r = writeFn (r.toFn (some []) (some [])) := by
        unfold saveOp writeFn writeHeader
        rw [e1, e2, dec_flag hr.lib, dec_flag hr.intr, dec_flag hr.float, dec_flag hr.double]
        simp [OpRow.toFn]
      rw [this]; rfl
  unfold check
  rw [key st.ops h.ops ha]
  simp only []
  have hv : ∀ f ∈ st.ops.map (fun r => r.toFn (some []) (some [])), f.Valid := by
    intro f hf
    rw [List.mem_map] at hf
    obtain ⟨r, hr, rfl⟩ := hf
    have := h.ops r hr
    exact ⟨this.id, this.p64, this.r64, this.p32, this.r32, this.nc, by simp [OpRow.toFn], by simp [OpRow.toFn], by simp [OpRow.toFn],
      by simp [OpRow.toFn]⟩
  have := C12_round_trip_partial garbage hg1 hg2 _ hv
  rw [List.length_map] at this
  rw [this]
  simp only [List.map_map]
  congr 1

end Verif.Precexp
