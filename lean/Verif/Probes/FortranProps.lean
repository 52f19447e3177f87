import Verif.Probes.Fortran
import Verif.Probes.Props

/-!
# Property C117: probes of Fortran programs

The documentation says that the functions are exactly the same in Fortran and that arguments can be passed directly
(doc/06-Postprocessing.md:183-191).  With a NUL after each name a Fortran program writes the file of the C program; without, the
names go on with what is behind them in memory.  Probes with a check cannot be made, and the number of probes has an undefined half.
-/

namespace Verif.Probes
open Verif Verif.Fp

theorem takeWhile_nul (s l : List Char) (h : nul ∉ s) : (s ++ nul :: l).takeWhile (· != nul) = s := by
  induction s with
  | nil => simp
  | cons a s ih =>
    rw [List.mem_cons, not_or] at h
    rw [List.cons_append, List.takeWhile_cons_of_pos (by simpa using Ne.symm h.1), ih h.2]

theorem cString_nul (s l : List Char) (h : nul ∉ s) : cString (s ++ nul :: l) = .ok s := by
  unfold cString
  rw [if_pos (by simp), takeWhile_nul s l h]

/-- What a call records when its names end in memory. -/
theorem recordF_eq (addr : Nat → Nat) (st : State) (c : FCall) (t v lt lv : List Char) (ht : c.test ++ c.testBehind = t ++ nul :: lt)
    (hv : c.var ++ c.varBehind = v ++ nul :: lv) (hnt : nul ∉ t) (hnv : nul ∉ v) : recordF addr st c = record addr st (probe t v c.value) := by
  unfold recordF
  rw [ht, hv, cString_nul t lt hnt, cString_nul v lv hnv, Outcome.bind_ok, Outcome.bind_ok]
  split_ifs with hc
  · rw [C36_comma addr st _ (.inl hc)]
  · rfl

theorem foldlM_eq (addr : Nat → Nat) (f : FCall → Call) (cs : List FCall) (h : ∀ c ∈ cs, ∀ st, recordF addr st c = record addr st (f c))
    (st : State) : cs.foldlM (recordF addr) st = (cs.map f).foldlM (record addr) st := by
  induction cs generalizing st with
  | nil => rfl
  | cons c cs ih =>
    rw [List.map_cons, List.foldlM_cons, List.foldlM_cons, h c (by simp) st]
    congr 1
    funext st'
    exact ih (fun d hd => h d (List.mem_cons_of_mem _ hd)) st'

/-- A call of a Fortran program whose names end with a NUL. -/
def terminated (test var : List Char) (value : Bits) (behind1 behind2 : List Char) : FCall :=
  ⟨test ++ [Char.ofNat 0], behind1, var ++ [Char.ofNat 0], behind2, value⟩

/-- **C117** (partial: names that end with a NUL, probes without a check.)  A Fortran program records the probes that a C program records
with the same names, so it writes the same file, whatever lies behind the names in memory. -/
theorem C117_same_partial (addr : Nat → Nat) (cs : List (List Char × List Char × Bits × List Char × List Char))
    (h : ∀ c ∈ cs, Char.ofNat 0 ∉ c.1 ∧ Char.ofNat 0 ∉ c.2.1) :
    runF addr (cs.map fun c => terminated c.1 c.2.1 c.2.2.1 c.2.2.2.1 c.2.2.2.2) = run addr (cs.map fun c => probe c.1 c.2.1 c.2.2.1) ∧
      fileF addr (cs.map fun c => terminated c.1 c.2.1 c.2.2.1 c.2.2.2.1 c.2.2.2.2) =
        run addr (cs.map fun c => probe c.1 c.2.1 c.2.2.1) >>= fun st => dump .file st >>= fun r => .ok r.1 := by
  have key : ∀ st : State, (cs.map fun c => terminated c.1 c.2.1 c.2.2.1 c.2.2.2.1 c.2.2.2.2).foldlM (recordF addr) st =
      (cs.map fun c => probe c.1 c.2.1 c.2.2.1).foldlM (record addr) st := by
    induction cs with
    | nil => intro st; rfl
    | cons c cs ih =>
      intro st
      rw [List.map_cons, List.map_cons, List.foldlM_cons, List.foldlM_cons]
      obtain ⟨h1, h2⟩ := h c (by simp)
      rw [recordF_eq addr st _ c.1 c.2.1 c.2.2.2.1 c.2.2.2.2 (by simp [terminated, nul]) (by simp [terminated, nul]) h1 h2]
      congr 1
      funext st'
      exact ih (fun d hd => h d (List.mem_cons_of_mem _ hd)) st'
  have e := key State.init
  refine ⟨e, ?_⟩
  unfold fileF runF run
  rw [e]

/-- **C117** A file that a Fortran program has written has one line per probe, with the value and no check. -/
theorem C117_file_partial (addr : Nat → Nat) (hA : Alloc addr) (cs : List (List Char × List Char × Bits × List Char × List Char)) (hL : cs.length ≤ 2 ^ 28)
    (h : ∀ c ∈ cs, Char.ofNat 0 ∉ c.1 ∧ Char.ofNat 0 ∉ c.2.1) (hc : ∀ c ∈ cs, ',' ∉ c.1 ∧ ',' ∉ c.2.1)
    (hd : (cs.map fun c => (c.1, c.2.1)).Nodup) :
    ∃ lines : List (List Char),
      lines.Perm (cs.map fun c => c.1 ++ ",".toList ++ c.2.1 ++ ",".toList ++ hexA c.2.2.1 ++ ",0x0p+0,none\n".toList) ∧
      fileF addr (cs.map fun c => terminated c.1 c.2.1 c.2.2.1 c.2.2.2.1 c.2.2.2.2) =
        .ok (some ("test,variable,value,accuracy_threshold,check_mode\n".toList ++ lines.flatten)) := by
  obtain ⟨st, hst, -⟩ := C36_accepted addr hA (cs.map fun c => probe c.1 c.2.1 c.2.2.1) (by simpa using hL)
    (by
      intro c hcm
      obtain ⟨d, hdm, rfl⟩ := List.mem_map.1 hcm
      exact hc d hdm)
    (by rw [List.map_map]; exact hd)
  obtain ⟨⟨ds, st', hp, -, -, hf⟩, -⟩ := C36_dump addr hA _ (by simpa using hL) st hst
  refine ⟨ds.map fun c => c.test ++ ",".toList ++ c.var ++ ",".toList ++ hexA c.value ++ ",".toList ++
      hexA c.threshold ++ ",".toList ++ c.mode ++ "\n".toList, ?_, ?_⟩
  · refine (hp.map _).trans ?_
    rw [List.map_map]
    refine List.Perm.of_eq (List.map_congr_left fun c _ => ?_)
    have : hexA (zeroBits false) = "0x0p+0".toList := by decide +kernel
    simp [probe, this]
  · rw [(C117_same_partial addr cs h).2, hst, Outcome.bind_ok, hf, Outcome.bind_ok, List.flatMap_def]

/-- A probe is added to those there are. -/
theorem recordF_heap (addr : Nat → Nat) (st st' : State) (c : FCall) (h : recordF addr st c = .ok st') :
    ∃ a key, st'.heap = (a, ⟨key, c.value, zeroBits false, "none".toList⟩) :: st.heap := by
  unfold recordF at h
  rcases h1 : cString (c.test ++ c.testBehind) with t | _ | _ <;> rw [h1] at h
  · rw [Outcome.bind_ok] at h
    split_ifs at h
    rcases h2 : cString (c.var ++ c.varBehind) with v | _ | _ <;> rw [h2] at h
    · rw [Outcome.bind_ok] at h
      unfold record at h
      split_ifs at h
      dsimp only at h
      split at h
      · cases h
      · rcases h3 : (if _ ≠ 0 then _ else _ : Outcome Unit) with u | _ | _ <;> rw [h3] at h
        · rw [Outcome.bind_ok] at h
          split at h
          · cases h
          · cases h
            exact ⟨_, _, rfl⟩
        · cases h
        · cases h
    · cases h
    · cases h
  · cases h
  · cases h

/-- **C117** No probe of a Fortran program has a check, whatever its names: the interface has no function for it. -/
theorem C117_no_check (addr : Nat → Nat) (cs : List FCall) (st : State) (h : runF addr cs = .ok st) :
    ∀ x ∈ st.heap, x.2.mode = "none".toList ∧ x.2.threshold = zeroBits false := by
  have key : ∀ (cs : List FCall) (s st : State), cs.foldlM (recordF addr) s = .ok st →
      (∀ x ∈ s.heap, x.2.mode = "none".toList ∧ x.2.threshold = zeroBits false) →
      ∀ x ∈ st.heap, x.2.mode = "none".toList ∧ x.2.threshold = zeroBits false := by
    intro cs
    induction cs with
    | nil =>
      intro s st h hs
      cases h
      exact hs
    | cons c cs ih =>
      intro s st h hs
      rw [List.foldlM_cons] at h
      rcases h1 : recordF addr s c with s1 | _ | _ <;> rw [h1] at h
      · rw [Outcome.bind_ok] at h
        refine ih s1 st h fun x hx => ?_
        obtain ⟨a, k, he⟩ := recordF_heap addr s s1 c h1
        rw [he, List.mem_cons] at hx
        rcases hx with rfl | hx
        · exact ⟨rfl, rfl⟩
        · exact hs x hx
      · cases h
      · cases h
  exact key cs _ st h (by intro x hx; cases hx)

/-- **C117** A name without a NUL goes on with what is behind it, to the first NUL. -/
theorem C117_unterminated (addr : Nat → Nat) (st : State) (test var b1 b2 l1 l2 : List Char) (x : Bits) (ht : Char.ofNat 0 ∉ test)
    (hv : Char.ofNat 0 ∉ var) (h1 : Char.ofNat 0 ∉ b1) (h2 : Char.ofNat 0 ∉ b2) :
    recordF addr st ⟨test, b1 ++ Char.ofNat 0 :: l1, var, b2 ++ Char.ofNat 0 :: l2, x⟩ = record addr st (probe (test ++ b1) (var ++ b2) x) :=
  recordF_eq addr st _ _ _ l1 l2 (by simp [nul]) (by simp [nul]) (by simpa [nul] using ⟨ht, h1⟩) (by simpa [nul] using ⟨hv, h2⟩)

/-- **C117** is false: names passed directly, as the documentation has it, are read to the end of the memory. -/
theorem C117_direct_wrong (addr : Nat → Nat) (st : State) (test var b1 b2 : List Char) (x : Bits) (ht : Char.ofNat 0 ∉ test) (h1 : Char.ofNat 0 ∉ b1) :
    recordF addr st ⟨test, b1, var, b2, x⟩ = .ub := by
  unfold recordF cString
  rw [if_neg (by simpa [nul] using ⟨ht, h1⟩)]
  rfl

/-- A sample of addresses. -/
theorem alloc_sample : Alloc fun n => n + 2 := ⟨fun a b h => by simpa using h, fun n => ⟨by omega, by omega⟩⟩

/-- **C117** is false: two names next to one another in memory are one name, and the file has other names than the program. -/
theorem C117_names_wrong (addr : Nat → Nat) (hA : Alloc addr) (x : Bits) :
    fileF addr [⟨"test".toList, "var\x00".toList, "var".toList, "\x00".toList, x⟩] =
      .ok (some ("test,variable,value,accuracy_threshold,check_mode\ntestvar,var,".toList ++ hexA x ++ ",0x0p+0,none\n".toList)) := by
  have e : runF addr [⟨"test".toList, "var\x00".toList, "var".toList, "\x00".toList, x⟩] = run addr [probe "testvar".toList "var".toList x] :=
    foldlM_eq addr (fun _ => probe "testvar".toList "var".toList x) _ (fun c hc st => by
      obtain rfl := List.mem_singleton.1 hc
      exact C117_unterminated addr st "test".toList "var".toList "var".toList [] [] [] x (by decide) (by decide) (by decide) (by decide)) _
  unfold fileF
  rw [e]
  exact ((C36_calls addr hA "testvar".toList "var".toList x x (by decide) (by decide)).1).trans (by simp)

/-- **C117** is false: the number of probes may be any number with the right lower half. -/
theorem C117_number_wrong (addr : Nat → Nat) (hA : Alloc addr) (x : Bits) :
    ∃ st, runF addr [terminated "test".toList "var".toList x [] []] = .ok st ∧ ∀ upper, numProbesF upper st = 1 + 2 ^ 32 * (upper % 2 ^ 32) := by
  obtain ⟨st, h1, h2⟩ := C36_accepted addr hA [probe "test".toList "var".toList x] (by simp) (by
    intro c hc
    obtain rfl := List.mem_singleton.1 hc
    exact ⟨show ',' ∉ "test".toList by decide, show ',' ∉ "var".toList by decide⟩) (by simp)
  refine ⟨st, ?_, fun upper => by unfold numProbesF; rw [h2]; rfl⟩
  rw [← h1]
  exact (C117_same_partial addr [("test".toList, "var".toList, x, [], [])] (by
    intro c hc
    obtain rfl := List.mem_singleton.1 hc
    exact ⟨show Char.ofNat 0 ∉ "test".toList by decide, show Char.ofNat 0 ∉ "var".toList by decide⟩)).1

example : ∃ st, runF (fun n => n + 2) [terminated "test".toList "var".toList (zeroBits true) [] []] = .ok st ∧ numProbesF 7 st = 30064771073 := by
  obtain ⟨st, h1, h2⟩ := C117_number_wrong _ alloc_sample (zeroBits true)
  exact ⟨st, h1, h2 7⟩

/-- Names that differ in trailing blanks, equal in Fortran, are names of two probes. -/
example (addr : Nat → Nat) (hA : Alloc addr) (x : Bits) :
    ∃ lines : List (List Char), lines.length = 2 ∧ fileF addr [terminated "t".toList "v".toList x [] "w".toList, terminated "t".toList "v ".toList x [] []] =
      .ok (some ("test,variable,value,accuracy_threshold,check_mode\n".toList ++ lines.flatten)) := by
  obtain ⟨lines, h1, h2⟩ := C117_file_partial addr hA [("t".toList, "v".toList, x, [], "w".toList), ("t".toList, "v ".toList, x, [], [])] (by simp)
    (by simp) (by simp) (by simp)
  exact ⟨lines, h1.length_eq, h2⟩

end Verif.Probes
