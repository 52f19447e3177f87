import Verif.Ci.Args
import Verif.Ci.CommandProps
import Verif.Precexp.ProfileProps

/-!
# Property C119: the arguments of `vfc_ci serve`

What is accepted on the command line is exactly what the help says, but for the default of `--ignore-recent`, which is refused when it is
written; and the numbers written by the user are those that the report works with.
-/

namespace Verif.Ci.Args
open Verif Verif.Ci.Report Verif.Precexp

theorem pyInt_toDigits (n : Nat) : pyInt (Nat.toDigits 10 n) = some (n : Int) := by
  have h := pyInt_dec (n : Int)
  have e : Vfi.dec (n : Int) = Nat.toDigits 10 n := by
    unfold Vfi.dec
    rw [if_neg (by omega)]
    rfl
  rwa [e] at h

theorem isPort_ok {s : Str} {n : Nat} (h : isPort s = .ok n) : pyInt s = some (n : Int) ∧ n ≤ 65535 := by
  unfold isPort at h
  cases hp : pyInt s with
  | none => rw [hp] at h; cases h
  | some v =>
    rw [hp] at h
    simp only at h
    split at h
    · cases h
    · injection h with h
      subst h
      exact ⟨congrArg some (by omega), by omega⟩

theorem isPositive_ok {s : Str} {n : Nat} (h : isPositive s = .ok n) : pyInt s = some (n : Int) ∧ 1 ≤ n := by
  unfold isPositive at h
  cases hp : pyInt s with
  | none => rw [hp] at h; cases h
  | some v =>
    rw [hp] at h
    simp only at h
    split at h
    · cases h
    · injection h with h
      subst h
      exact ⟨congrArg some (by omega), by omega⟩

theorem isPort_of {s : Str} {v : Int} (h : pyInt s = some v) (h0 : 0 ≤ v) (h1 : v ≤ 65535) : isPort s = .ok v.toNat := by
  unfold isPort
  rw [h]
  exact if_neg (by omega)

theorem isPositive_of {s : Str} {v : Int} (h : pyInt s = some v) (h0 : 1 ≤ v) : isPositive s = .ok v.toNat := by
  unfold isPositive
  rw [h]
  exact if_neg (by omega)

theorem bind_inv {α β : Type} {x : Outcome α} {f : α → Outcome β} {b : β} (h : (x >>= f) = .ok b) : ∃ a, x = .ok a ∧ f a = .ok b := by
  cases x with
  | ok a => exact ⟨a, rfl, h⟩
  | ub => cases h
  | exit => cases h

/-- The four arguments that are checked, from an accepted command line. -/
theorem serveArgs_ok {isdir : Str → Bool} {d : Str} {g : Given} {o : Serve} (h : serveArgs isdir d g = .ok o) :
    isdir (g.directory.getD ".".toList) = true ∧ optional isPort 8080 g.port = .ok o.port ∧
      optional isPositive 0 g.maxFiles = .ok o.maxFiles ∧ optional isPositive 0 g.ignoreRecent = .ok o.ignoreRecent ∧
      o = { dirname := d, directory := g.directory.getD ".".toList, show_ := g.show_, port := o.port,
            origin := g.origin.getD "*".toList, logo := g.logo.getD [], maxFiles := o.maxFiles, ignoreRecent := o.ignoreRecent } := by
  unfold serveArgs at h
  obtain ⟨x, hx, h⟩ := bind_inv h
  obtain ⟨p, hp, h⟩ := bind_inv h
  obtain ⟨m, hm, h⟩ := bind_inv h
  obtain ⟨i, hi, h⟩ := bind_inv h
  unfold isDirectory at hx
  split at hx
  · rename_i hd
    injection hx with hx
    injection h with h
    subst h
    subst hx
    exact ⟨hd, hp, hm, hi, rfl⟩
  · cases hx

/-- **C119** A command line is accepted when the directory exists, the port is a number from 0 to 65535, and the two numbers of files are
positive; otherwise nothing is served. -/
theorem C119_accepts (isdir : Str → Bool) (d : Str) (g : Given) :
    (∃ o, serveArgs isdir d g = .ok o) ↔
      isdir (g.directory.getD ".".toList) = true ∧ (∀ s, g.port = some s → ∃ v, pyInt s = some v ∧ 0 ≤ v ∧ v ≤ 65535) ∧
        (∀ s, g.maxFiles = some s → ∃ v, pyInt s = some v ∧ 1 ≤ v) ∧
        (∀ s, g.ignoreRecent = some s → ∃ v, pyInt s = some v ∧ 1 ≤ v) := by
  constructor
  · rintro ⟨o, h⟩
    obtain ⟨h1, h2, h3, h4, -⟩ := serveArgs_ok h
    refine ⟨h1, ?_, ?_, ?_⟩
    · intro s e
      rw [e] at h2
      obtain ⟨a, b⟩ := isPort_ok h2
      exact ⟨_, a, by omega, by omega⟩
    · intro s e
      rw [e] at h3
      obtain ⟨a, b⟩ := isPositive_ok h3
      exact ⟨_, a, by omega⟩
    · intro s e
      rw [e] at h4
      obtain ⟨a, b⟩ := isPositive_ok h4
      exact ⟨_, a, by omega⟩
  · rintro ⟨h1, h2, h3, h4⟩
    have e2 : ∃ p, optional isPort 8080 g.port = .ok p := by
      cases e : g.port with
      | none => exact ⟨_, rfl⟩
      | some s =>
        obtain ⟨v, a, b, c⟩ := h2 s e
        exact ⟨_, isPort_of a b c⟩
    have pos : ∀ x : Option Str, (∀ s, x = some s → ∃ v, pyInt s = some v ∧ 1 ≤ v) → ∃ p, optional isPositive 0 x = .ok p := by
      intro x hx
      cases x with
      | none => exact ⟨_, rfl⟩
      | some s =>
        obtain ⟨v, a, b⟩ := hx s rfl
        exact ⟨_, isPositive_of a b⟩
    obtain ⟨p, hp⟩ := e2
    obtain ⟨m, hm⟩ := pos _ h3
    obtain ⟨i, hi⟩ := pos _ h4
    have hd : isDirectory isdir (g.directory.getD ".".toList) = .ok (g.directory.getD ".".toList) := if_pos h1
    unfold serveArgs
    rw [hd, hp, hm, hi]
    exact ⟨_, rfl⟩

theorem reading_nat {name : Str} {default : Int} {argv : List Str} {n : Nat} {x : Option Str}
    (h : option name argv = .ok (if n ≠ 0 then some (Nat.toDigits 10 n) else none)) (hx : optional isPositive 0 x = .ok n) :
    reading name default argv = (x.map pyInt).getD (some default) := by
  unfold reading
  rw [h]
  cases x with
  | none =>
    injection hx with hx
    subst hx
    rfl
  | some s =>
    obtain ⟨a, b⟩ := isPositive_ok hx
    rw [if_pos (by omega)]
    show pyInt (Nat.toDigits 10 n) = pyInt s
    rw [pyInt_toDigits, a]

theorem port_read {n d : Nat} {x : Option Str} (h : optional isPort d x = .ok n) :
    pyInt (Nat.toDigits 10 n) = (x.map pyInt).getD (some (d : Int)) := by
  rw [pyInt_toDigits]
  cases x with
  | none =>
    have : d = n := Outcome.ok.inj h
    rw [this]
    rfl
  | some s => exact (isPort_ok h).1.symm

/-- **C119** (partial: for texts without spaces and slashes that the command loses, see C76.)  The report works with the numbers, the
directory and the port that the user wrote, or else with those of the help: 100 files, none ignored, the current directory, port 8080. -/
theorem C119_read_partial (isdir : Str → Bool) (d : Str) (g : Given) (o : Serve) (h : serveArgs isdir d g = .ok o) (hc : Clean o)
    (hs : NoSpace o) (hd : o.directory ≠ []) (h1 : o.directory ∉ optionNames) (h2 : o.logo ∉ optionNames) :
    reading "max_files".toList 100 (args (words (command o))) = (g.maxFiles.map pyInt).getD (some 100) ∧
      reading "ignore_recent".toList 0 (args (words (command o))) = (g.ignoreRecent.map pyInt).getD (some 0) ∧
      option "directory".toList (args (words (command o))) = .ok (some (g.directory.getD ".".toList)) ∧
      ∃ w, ["--port".toList, w] <:+: words (command o) ∧ pyInt w = (g.port.map pyInt).getD (some 8080) := by
  obtain ⟨-, k2, k3, k4, k5⟩ := serveArgs_ok h
  obtain ⟨r1, -, r3, r4⟩ := C76_read_partial o hc hs hd h1 h2
  refine ⟨reading_nat r3 k3, reading_nat r4 k4, ?_, Nat.toDigits 10 o.port, ?_, ?_⟩
  · rw [r1]
    have : o.directory = g.directory.getD ".".toList := by rw [k5]
    rw [this]
  · rw [C76_words_partial o hc hs hd]
    unfold expected
    refine ⟨["bokeh".toList, "serve".toList, o.dirname ++ "/vfc_ci_report".toList] ++ (if o.show_ then ["--show".toList] else []) ++
      ["--allow-websocket-origin=".toList ++ o.origin ++ ":".toList ++ Nat.toDigits 10 o.port],
      ["--args".toList, "directory".toList, o.directory] ++
        optWords "logo".toList o.logo (decide (o.logo ≠ [])) ++
        optWords "max_files".toList (Nat.toDigits 10 o.maxFiles) (decide (o.maxFiles ≠ 0)) ++
        optWords "ignore_recent".toList (Nat.toDigits 10 o.ignoreRecent) (decide (o.ignoreRecent ≠ 0)), ?_⟩
    simp only [List.append_assoc, List.cons_append, List.nil_append]
  · exact port_read k2

/-- **C119** is false: `--ignore-recent 0`, the default by the help, is refused, whatever the other options. -/
theorem C119_zero_wrong (isdir : Str → Bool) (d : Str) (g : Given) (h : g.ignoreRecent = some "0".toList) :
    ¬ ∃ o, serveArgs isdir d g = .ok o := by
  rw [C119_accepts]
  rintro ⟨-, -, -, h4⟩
  obtain ⟨v, a, b⟩ := h4 _ h
  rw [show pyInt "0".toList = some 0 by decide +kernel] at a
  injection a with a
  omega

example : ∃ o, serveArgs (fun _ => true) "/usr/ci".toList
    { directory := some "../runs".toList, show_ := true, port := some " 0443".toList, maxFiles := some "+20".toList } = .ok o ∧
    o.port = 443 ∧ o.maxFiles = 20 ∧ o.ignoreRecent = 0 := ⟨_, rfl, by decide +kernel, by decide +kernel, rfl⟩

example : ¬ ∃ o, serveArgs (fun _ => true) "/usr/ci".toList { port := some "65536".toList } = .ok o := by
  rw [C119_accepts]
  rintro ⟨-, h, -⟩
  obtain ⟨v, a, b, c⟩ := h _ rfl
  rw [show pyInt "65536".toList = some 65536 by decide +kernel] at a
  injection a with a
  omega

/-- The words `+20` and `20` give the same report. -/
example : reading "max_files".toList 100 (args (words (command sample))) = some 20 :=
  (C119_read_partial (fun _ => true) "/usr/ci".toList
    { directory := some "../runs".toList, show_ := true, maxFiles := some "+20".toList } sample (by decide +kernel) sample_clean
    ⟨by decide, by decide, by decide, by decide⟩ (by decide) (by decide) (by decide)).1.trans (by decide +kernel)

end Verif.Ci.Args
