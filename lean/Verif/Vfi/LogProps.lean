import Verif.Ieee.DebugProps
import Verif.Vfi.Log
import Verif.Vfi.Props

/-!
# The log of the function instrumentation (C108)

The log changes nothing; read line by line, it says which functions were called, how deep, with which precision, and what happened to their arguments.
-/

namespace Verif.Vfi
open Verif Verif.Fp Verif.Vprec.Config
open Verif.Ieee (splitOn)

/-! ## The log changes nothing -/

/-- A computation without its log. -/
def unlogged {α : Type} (x : Outcome (α × Log)) : Outcome α := x >>= fun r => .ok r.1

theorem unlogged_bind {α β : Type} {x : Outcome (α × Log)} {y : Outcome α} {f : α × Log → Outcome (β × Log)} {g : α → Outcome β}
    (hx : unlogged x = y) (hf : ∀ a l, x = .ok (a, l) → unlogged (f (a, l)) = g a) : unlogged (x >>= f) = y >>= g := by
  subst hx
  cases x with
  | ok r => exact hf r.1 r.2 rfl
  | exit => rfl
  | ub => rfl

theorem bind_same {α β : Type} {x : Outcome α} {f : α → Outcome (β × Log)} {g : α → Outcome β}
    (hf : ∀ a, x = .ok a → unlogged (f a) = g a) : unlogged (x >>= f) = x >>= g := by
  cases x with
  | ok a => exact hf a rfl
  | exit => rfl
  | ub => rfl

/-- The memory behind an argument has the elements that the log reads. -/
def Arg.Readable (a : Arg) : Prop := ∀ mem, a.mem = some mem → 1 ≤ mem.length ∧ (a.ty.isPtr = true → a.size ≤ mem.length)

def Ev.args : Ev → List Arg
  | .enter _ as => as
  | .exit _ as => as

theorem print_open (l : Log) (t : List Char) : (l.print t).isOpen = l.isOpen := by
  unfold Log.print; split <;> rfl

theorem logHead_ok (inp : Bool) (fid : Id) (a : Arg) (j : Nat) (l : Log) (hp : a.mem = none → a.ty.isPtr = true)
    (h : l.isOpen = true → ∀ mem, a.mem = some mem → j < mem.length) : ∃ l', logHead inp fid a j l = .ok l' ∧ l'.isOpen = l.isOpen := by
  unfold logHead
  split
  · next ho =>
    split
    · next hm => rw [if_pos (hp hm)]; exact ⟨_, rfl, print_open _ _⟩
    · next mem hm =>
      rw [List.getElem?_eq_getElem (h ho mem hm)]
      exact ⟨_, rfl, print_open _ _⟩
  · exact ⟨_, rfl, rfl⟩

theorem logTail_ok (inp : Bool) (ty : FTy) (mem : List Bits) (j : Nat) (e m : Int) (l : Log) (h : l.isOpen = true → j < mem.length) :
    ∃ l', logTail inp ty mem j e m l = .ok l' ∧ l'.isOpen = l.isOpen := by
  unfold logTail
  split
  · next ho =>
    rw [List.getElem?_eq_getElem (h ho)]
    exact ⟨_, rfl, print_open _ _⟩
  · exact ⟨_, rfl, rfl⟩

theorem touch_length {sem : ShiftSem} {c : Cfg} {inp new mf : Bool} {ty : FTy} {e m : Int} {s s' : List Bits × ArgData}
    (h : touch sem c inp new mf ty e m s = .ok s') : s'.1.length = s.1.length := by
  unfold touch roundFirst at h
  obtain ⟨mem, h1, h⟩ := bind_ok_inv h
  have hl : mem.length = s.1.length := by
    split at h1
    · cases h1
    · next v rest hs =>
      split at h1
      · obtain ⟨v', -, h1⟩ := bind_ok_inv h1
        rw [Outcome.pure_eq, Outcome.ok.injEq] at h1
        rw [← h1, hs]; rfl
      · rw [Outcome.ok.injEq] at h1
        rw [← h1, hs]
  split at h
  · cases h
  · obtain ⟨d, -, h⟩ := bind_ok_inv h
    rw [Outcome.pure_eq, Outcome.ok.injEq] at h
    rw [← h]; exact hl

theorem ptrLoop_same (sem : ShiftSem) (c : Cfg) (inp new mf : Bool) (fid : Id) (a : Arg) (e m : Int) : ∀ (n j : Nat) (s : List Bits × ArgData) (l : Log),
    (l.isOpen = true → j + n ≤ s.1.length) →
    unlogged (ptrLoopL sem c inp new mf fid a e m n j (s, l)) = ptrLoop sem c inp new mf a.ty e m n s
  | 0, j, s, l, _ => rfl
  | n + 1, j, s, l, h => by
    rw [ptrLoopL, ptrLoop]
    obtain ⟨l1, h1, o1⟩ := logHead_ok inp fid { a with mem := some s.1 } j l (by simp) (fun ho mem hm => by cases hm; have := h ho; omega)
    rw [h1, Outcome.bind_ok]
    obtain ⟨l2, h2, o2⟩ : ∃ l2, (if inp = true then .ok l1 else logHead inp fid { a with mem := some s.1 } j l1) = .ok l2 ∧ l2.isOpen = l.isOpen := by
      split
      · exact ⟨l1, rfl, o1⟩
      · obtain ⟨l2, h2, o2⟩ := logHead_ok inp fid { a with mem := some s.1 } j l1 (by simp)
          (fun ho mem hm => by cases hm; have := h (o1 ▸ ho); omega)
        exact ⟨l2, h2, o2.trans o1⟩
    rw [h2, Outcome.bind_ok]
    refine bind_same fun s' hs => ?_
    have hl := touch_length hs
    obtain ⟨l3, h3, o3⟩ := logTail_ok inp a.ty s'.1 j e m l2 (fun ho => by have := h (o2 ▸ ho); omega)
    rw [h3, Outcome.bind_ok]
    exact ptrLoop_same sem c inp new mf fid a e m n (j + 1) s' l3 (fun ho => by have := h (o2 ▸ o3 ▸ ho); omega)

theorem doArg_same (sem : ShiftSem) (c : Cfg) (inp new mf : Bool) (fid : Id) (a : Arg) (d : ArgData) (l : Log) (h : l.isOpen = true → a.Readable) :
    unlogged (doArgL sem c inp new mf fid a d l) = doArg sem c inp new mf a d := by
  obtain ⟨ty, id, size, mem⟩ := a
  cases mem with
  | none =>
    have hn : ty.isPtr = true → unlogged (doArgL sem c inp new mf fid ⟨ty, id, size, none⟩ d l) =
        .ok (⟨ty, id, size, none⟩, if new then initArg ⟨ty, id, size, none⟩ else d) := fun hp => by
      obtain ⟨l1, h1, -⟩ := logHead_ok inp fid ⟨ty, id, size, none⟩ 0 l (fun _ => hp) (fun _ _ hm => by cases hm)
      simp only [doArgL, hp, if_true]
      rw [h1]
      rfl
    cases ty
    · rfl
    · rfl
    · exact hn rfl
    · exact hn rfl
  | some mem =>
    have hh : ∀ ty, ((⟨ty, id, size, some mem⟩ : Arg).Readable → 0 < mem.length) := fun ty hr => (hr mem rfl).1
    obtain ⟨l1, h1, o1⟩ := logHead_ok inp fid ⟨ty, id, size, some mem⟩ 0 l (by simp) (fun ho m hm => by cases hm; exact hh _ (h ho))
    have hp : ty.isPtr = true → unlogged (doArgL sem c inp new mf fid ⟨ty, id, size, some mem⟩ d l) =
        ptrLoop sem c inp new mf ty d.expLen d.manLen size (mem, if new then initArg ⟨ty, id, size, some mem⟩ else d) >>= fun s =>
          .ok ((⟨ty, id, size, some s.1⟩ : Arg), s.2) := by
      intro hp
      simp only [doArgL, hp, if_true]
      rw [h1, Outcome.bind_ok]
      refine unlogged_bind (ptrLoop_same sem c inp new mf fid _ _ _ _ _ _ _ (fun ho => ?_)) fun s l _ => rfl
      rw [Nat.zero_add]
      exact (h (o1 ▸ ho) mem rfl).2 hp
    have hq : ty.isPtr = false → unlogged (doArgL sem c inp new mf fid ⟨ty, id, size, some mem⟩ d l) =
        touch sem c inp new mf ty d.expLen d.manLen (mem, if new then initArg ⟨ty, id, size, some mem⟩ else d) >>= fun s =>
          .ok ((⟨ty, id, size, some s.1⟩ : Arg), s.2) := by
      intro hp
      simp only [doArgL, hp, Bool.false_eq_true, if_false]
      rw [h1, Outcome.bind_ok]
      refine bind_same fun s hs => ?_
      have hl := touch_length hs
      obtain ⟨l2, h2, -⟩ := logTail_ok inp ty s.1 0 d.expLen d.manLen l1 (fun ho => by rw [hl]; exact hh _ (h (o1 ▸ ho)))
      rw [h2]
      rfl
    cases ty
    · exact hq rfl
    · exact hq rfl
    · exact hp rfl
    · exact hp rfl

theorem logHead_open {inp : Bool} {fid : Id} {a : Arg} {j : Nat} {l l' : Log} (h : logHead inp fid a j l = .ok l') : l'.isOpen = l.isOpen := by
  unfold logHead at h
  split at h
  · split at h
    · split at h
      · rw [Outcome.ok.injEq] at h; rw [← h]; exact print_open _ _
      · cases h
    · split at h
      · cases h
      · rw [Outcome.ok.injEq] at h; rw [← h]; exact print_open _ _
  · rw [Outcome.ok.injEq] at h; rw [← h]

theorem logTail_open {inp : Bool} {ty : FTy} {mem : List Bits} {j : Nat} {e m : Int} {l l' : Log} (h : logTail inp ty mem j e m l = .ok l') :
    l'.isOpen = l.isOpen := by
  unfold logTail at h
  split at h
  · split at h
    · cases h
    · rw [Outcome.ok.injEq] at h; rw [← h]; exact print_open _ _
  · rw [Outcome.ok.injEq] at h; rw [← h]

theorem ptrLoop_open {sem : ShiftSem} {c : Cfg} {inp new mf : Bool} {fid : Id} {a : Arg} {e m : Int} : ∀ (n j : Nat)
    (s : (List Bits × ArgData) × Log) (s' : (List Bits × ArgData) × Log), ptrLoopL sem c inp new mf fid a e m n j s = .ok s' → s'.2.isOpen = s.2.isOpen
  | 0, _, s, s', h => by rw [ptrLoopL, Outcome.ok.injEq] at h; rw [h]
  | n + 1, j, (s, l), s', h => by
    rw [ptrLoopL] at h
    obtain ⟨l1, h1, h⟩ := bind_ok_inv h
    obtain ⟨l2, h2, h⟩ := bind_ok_inv h
    obtain ⟨s2, -, h⟩ := bind_ok_inv h
    obtain ⟨l3, h3, h⟩ := bind_ok_inv h
    rw [ptrLoop_open n (j + 1) _ _ h]
    show l3.isOpen = l.isOpen
    rw [logTail_open h3, ← logHead_open h1]
    split at h2
    · rw [Outcome.ok.injEq] at h2; rw [h2]
    · exact logHead_open h2

theorem doArg_open {sem : ShiftSem} {c : Cfg} {inp new mf : Bool} {fid : Id} {a : Arg} {d : ArgData} {l : Log} {r : (Arg × ArgData) × Log}
    (h : doArgL sem c inp new mf fid a d l = .ok r) : r.2.isOpen = l.isOpen := by
  simp only [doArgL] at h
  split at h
  · split at h
    · obtain ⟨l1, h1, h⟩ := bind_ok_inv h
      obtain ⟨⟨s, l2⟩, h2, h⟩ := bind_ok_inv h
      rw [Outcome.pure_eq, Outcome.ok.injEq] at h
      rw [← h]
      exact (ptrLoop_open _ _ _ _ h2).trans (logHead_open h1)
    · obtain ⟨l1, h1, h⟩ := bind_ok_inv h
      obtain ⟨s, -, h⟩ := bind_ok_inv h
      obtain ⟨l2, h2, h⟩ := bind_ok_inv h
      rw [Outcome.pure_eq, Outcome.ok.injEq] at h
      rw [← h]
      exact (logTail_open h2).trans (logHead_open h1)
  · split at h
    · obtain ⟨l1, h1, h⟩ := bind_ok_inv h
      rw [Outcome.pure_eq, Outcome.ok.injEq] at h
      rw [← h]
      exact logHead_open h1
    · cases h

theorem doArgs_same (sem : ShiftSem) (c : Cfg) (inp new mf : Bool) (fid : Id) : ∀ (as : List Arg) (ds : List ArgData) (l : Log),
    (l.isOpen = true → ∀ a ∈ as, a.Readable) → unlogged (doArgsL sem c inp new mf fid as ds l) = doArgs sem c inp new mf as ds
  | [], ds, l, _ => by simp only [doArgsL, doArgs]; rfl
  | _ :: _, [], l, _ => by simp only [doArgsL, doArgs]; rfl
  | a :: as, d :: ds, l, h => by
    simp only [doArgsL, doArgs]
    refine unlogged_bind (doArg_same sem c inp new mf fid a d l fun ho => h ho a (by simp)) fun r l1 h1 => ?_
    refine unlogged_bind (doArgs_same sem c inp new mf fid as ds l1 fun ho b hb => h ?_ b (by simp [hb])) fun r l2 _ => rfl
    rw [← doArg_open h1]; exact ho

theorem withArgs_same (sem : ShiftSem) (c : Cfg) (inp mf : Bool) (fid : Id) (as : List Arg) (recs : Option (List ArgData)) (l : Log)
    (h : l.isOpen = true → ∀ a ∈ as, a.Readable) : unlogged (withArgsL sem c inp mf fid as recs l) = withArgs sem c inp mf as recs := by
  unfold withArgsL withArgs
  dsimp only
  generalize (if (recs.isNone && decide (0 < as.length)) = true then some (List.replicate as.length zeroArg) else recs) = r
  cases r with
  | none => cases as <;> rfl
  | some ds => exact unlogged_bind (doArgs_same sem c inp _ mf fid as ds l h) fun r l _ => rfl

theorem enterFn_same (sem : ShiftSem) (c : Info) (as : List Arg) (st : St) (l : Log) (h : l.isOpen = true → ∀ a ∈ as, a.Readable) :
    unlogged (enterFnL sem c as st l) = enterFn sem c as st := by
  unfold enterFnL enterFn
  refine bind_same fun stack _ => ?_
  dsimp only
  split
  · unfold vfiEnterL vfiEnter
    refine bind_same fun info _ => ?_
    cases info with
    | none => rfl
    | some fi =>
      refine bind_same fun n _ => bind_same fun cfg _ => ?_
      refine unlogged_bind (withArgs_same sem cfg true _ _ as _ _ fun ho => h ?_) fun r l _ => rfl
      rwa [print_open, print_open] at ho
  · rfl

theorem exitFn_same (sem : ShiftSem) (c : Info) (as : List Arg) (st : St) (l : Log) (h : l.isOpen = true → ∀ a ∈ as, a.Readable) :
    unlogged (exitFnL sem c as st l) = exitFn sem c as st := by
  unfold exitFnL exitFn
  refine unlogged_bind ?_ fun r l _ => bind_same fun stack _ => rfl
  split
  · unfold vfiExitL vfiExit
    refine bind_same fun info _ => ?_
    cases info with
    | none => rfl
    | some fi =>
      refine bind_same fun parent _ => bind_same fun cfg _ => ?_
      dsimp only
      cases st.vmap (hash fi.id) with
      | none => rfl
      | some fn =>
        refine unlogged_bind (withArgs_same sem cfg false _ _ as _ _ fun ho => h ?_) fun r l _ => rfl
        rwa [print_open] at ho
  · rfl

theorem doArgs_open {sem : ShiftSem} {c : Cfg} {inp new mf : Bool} {fid : Id} : ∀ (as : List Arg) (ds : List ArgData) (l : Log)
    (r : (List Arg × List ArgData) × Log), doArgsL sem c inp new mf fid as ds l = .ok r → r.2.isOpen = l.isOpen
  | [], ds, l, r, h => by rw [doArgsL, Outcome.ok.injEq] at h; rw [← h]
  | _ :: _, [], l, r, h => by rw [doArgsL] at h; cases h
  | a :: as, d :: ds, l, r, h => by
    rw [doArgsL] at h
    obtain ⟨⟨⟨_, _⟩, _⟩, h1, h⟩ := bind_ok_inv h
    obtain ⟨⟨⟨_, _⟩, _⟩, h2, h⟩ := bind_ok_inv h
    simp only [Outcome.pure_eq, Outcome.ok.injEq] at h
    rw [← h]
    exact (doArgs_open as ds _ _ h2).trans (doArg_open h1)

theorem withArgs_open {sem : ShiftSem} {c : Cfg} {inp mf : Bool} {fid : Id} {as : List Arg} {recs : Option (List ArgData)} {l : Log}
    {r : (List Arg × Option (List ArgData)) × Log} (h : withArgsL sem c inp mf fid as recs l = .ok r) : r.2.isOpen = l.isOpen := by
  unfold withArgsL at h
  dsimp only at h
  generalize (if (recs.isNone && decide (0 < as.length)) = true then some (List.replicate as.length zeroArg) else recs) = q at h
  cases q with
  | none =>
    cases as with
    | nil => rw [Outcome.ok.injEq] at h; rw [← h]
    | cons => cases h
  | some ds =>
    obtain ⟨⟨⟨_, _⟩, _⟩, h1, h⟩ := bind_ok_inv h
    simp only [Outcome.pure_eq, Outcome.ok.injEq] at h
    rw [← h]
    exact doArgs_open _ _ _ _ h1

theorem step_open {sem : ShiftSem} {s s' : St × Log} {e : Ev} (h : stepL sem s e = .ok s') : s'.2.isOpen = s.2.isOpen := by
  cases e with
  | enter c as =>
    rw [stepL] at h
    obtain ⟨r, h1, h⟩ := bind_ok_inv h
    simp only [Outcome.pure_eq, Outcome.ok.injEq] at h
    rw [← h]
    unfold enterFnL at h1
    obtain ⟨stack, -, h1⟩ := bind_ok_inv h1
    dsimp only at h1
    split at h1
    · unfold vfiEnterL at h1
      obtain ⟨info, -, h1⟩ := bind_ok_inv h1
      cases info with
      | none => cases h1
      | some fi =>
        obtain ⟨n, -, h1⟩ := bind_ok_inv h1
        obtain ⟨cfg, -, h1⟩ := bind_ok_inv h1
        obtain ⟨⟨⟨_, _⟩, _⟩, h2, h1⟩ := bind_ok_inv h1
        simp only [Outcome.pure_eq, Outcome.ok.injEq] at h1
        rw [← h1]
        have := withArgs_open h2
        rw [print_open, print_open] at this
        exact this
    · simp only [Outcome.pure_eq, Outcome.ok.injEq] at h1
      rw [← h1]
  | exit c as =>
    rw [stepL] at h
    obtain ⟨r, h1, h⟩ := bind_ok_inv h
    simp only [Outcome.pure_eq, Outcome.ok.injEq] at h
    rw [← h]
    unfold exitFnL at h1
    obtain ⟨⟨⟨_, _⟩, l2⟩, h2, h1⟩ := bind_ok_inv h1
    obtain ⟨stack, -, h1⟩ := bind_ok_inv h1
    simp only [Outcome.pure_eq, Outcome.ok.injEq] at h1
    rw [← h1]
    show l2.isOpen = _
    split at h2
    · unfold vfiExitL at h2
      obtain ⟨info, -, h2⟩ := bind_ok_inv h2
      cases info with
      | none => cases h2
      | some fi =>
        obtain ⟨parent, -, h2⟩ := bind_ok_inv h2
        obtain ⟨cfg, -, h2⟩ := bind_ok_inv h2
        dsimp only at h2
        cases hv : s.1.vmap (hash fi.id) with
        | none => rw [hv] at h2; cases h2
        | some fn =>
          rw [hv] at h2
          obtain ⟨⟨⟨_, _⟩, _⟩, h3, h2⟩ := bind_ok_inv h2
          simp only [Outcome.pure_eq, Outcome.ok.injEq] at h2
          obtain ⟨-, rfl⟩ := Prod.mk.inj h2
          have := withArgs_open h3
          rw [print_open] at this
          rw [print_open]
          exact this
    · simp only [Outcome.pure_eq, Outcome.ok.injEq] at h2
      obtain ⟨-, rfl⟩ := Prod.mk.inj h2
      rfl

/-- **C108.**  The hooks do the same with a log and without, if the memory behind the arguments has the elements that are declared. -/
theorem C108_transparent (sem : ShiftSem) (es : List Ev) : ∀ (st : St) (l : Log), (l.isOpen = true → ∀ e ∈ es, ∀ a ∈ e.args, a.Readable) →
    unlogged (runL sem (st, l) es) = run sem st es := by
  induction es with
  | nil => intro st l _; rfl
  | cons e es ih =>
    intro st l h
    rw [runL, run]
    refine unlogged_bind ?_ fun st' l' h' => ih st' l' fun ho e' he => h ?_ e' (by simp [he])
    · cases e with
      | enter c as =>
        refine unlogged_bind (enterFn_same sem c as st l fun ho => h ho (.enter c as) (by simp)) fun r l' _ => rfl
      | exit c as =>
        refine unlogged_bind (exitFn_same sem c as st l fun ho => h ho (.exit c as) (by simp)) fun r l' _ => rfl
    · rw [← step_open h']; exact ho

/-! ## Lines -/

/-- A line of the log. -/
inductive Entry
  | blank (depth : Nat)
  | enter (depth : Nat) (id : Id) (ops : Int × Int × Int × Int)
  | exit (depth : Nat) (id : Id) (ops : Int × Int × Int × Int)
  | value (depth : Nat) (inp : Bool) (fid : Id) (double : Bool) (arg : Id) (before after : Bits) (man exp : Int)
deriving DecidableEq

/-- An integer in decimal. -/
def readInt : List Char → Option Int
  | '-' :: t => if t ≠ [] ∧ t.all Char.isDigit then some (-(Nat.ofDigitChars 10 t 0 : Int)) else none
  | t => if t ≠ [] ∧ t.all Char.isDigit then some (Nat.ofDigitChars 10 t 0 : Int) else none

/-- Four integers. -/
def readOps : List (List Char) → Option (Int × Int × Int × Int)
  | [a, b, c, d] => (readInt a).bind fun a => (readInt b).bind fun b => (readInt c).bind fun c => (readInt d).map fun d => (a, b, c, d)
  | _ => none

/-- `(m, e)` or `(m,e)`. -/
def readPair (t : List Char) : Option (Int × Int) :=
  if t.head? = some '(' ∧ t.getLast? = some ')' then
    match splitOn ',' ((t.drop 1).dropLast) with
    | [m, e] => (readInt m).bind fun m => (readInt (e.dropWhile (· == ' '))).map fun e => (m, e)
    | _ => none
  else none

/-- The fields of a line that says something. -/
def readFields (depth : Nat) : List (List Char) → Option Entry
  | [] => none
  | w :: r =>
    if "enter in ".toList.isPrefixOf w then (readOps r).map (.enter depth (w.drop 9))
    else if "exit of ".toList.isPrefixOf w then (readOps r).map (.exit depth (w.drop 8))
    else if w = " - input".toList ∨ w = " - output".toList then
      match r with
      | fid :: ty :: arg :: v :: arrow :: q =>
        if arrow = "->".toList ∧ (ty = "float".toList ∨ ty = "double".toList) then
          match q.dropWhile (· == []) with
          | [v', p] => (Probes.fromHex v).bind fun v => (Probes.fromHex v').bind fun v' => (readPair p).map fun p =>
              .value depth (w = " - input".toList) fid (ty = "double".toList) arg v v' p.1 p.2
          | _ => none
        else none
      | _ => none
    else none

/-- A line: tabs for the depth, then fields between tabs. -/
def readLine (line : List Char) : Option Entry :=
  let ws := splitOn '\t' line
  let r := ws.dropWhile (· == [])
  if r = [] then some (.blank (ws.length - 1)) else readFields (ws.length - r.length) r

/-- The log: lines, each ended by a newline. -/
def readLog (t : List Char) : Option (List Entry) :=
  if (splitOn '\n' t).getLast? = some [] then (splitOn '\n' t).dropLast.mapM readLine else none

/-- What can be read of a number: NaNs look alike. -/
def seen (x : Bits) : Bits := if x.exp = b64.expInf ∧ x.man ≠ 0 then nanBits b64 else x

def Entry.seen : Entry → Entry
  | .value d i f t a v w m e => .value d i f t a (Vfi.seen v) (Vfi.seen w) m e
  | e => e

/-! ## What a run should have in its log -/

/-- The number an argument of scalar type is. -/
def Arg.number (a : Arg) : Bits := a.ty.promote ((a.mem.getD []).headD (zeroBits false))

/-- The lines of the arguments: what they were and what they became, with the format of their records. -/
def values (depth : Nat) (inp : Bool) (fid : Id) : List ArgData → List Arg → List Arg → List Entry
  | d :: ds, a :: as, b :: bs =>
    .value depth inp fid (a.ty == .double) a.id a.number b.number d.manLen d.expLen :: values depth inp fid ds as bs
  | _, _, _ => []

/-- The records of the arguments before the call; zeros if there are none yet. -/
def formats (recs : Option (List ArgData)) (n : Nat) : List ArgData := recs.getD (List.replicate n zeroArg)

/-- What happens, as the hooks without log have it: calls and returns of functions that use floating point, at the depth of those that are running. -/
def history (sem : ShiftSem) (profile : Nat → Option Fn) : St → Nat → List Ev → List Entry
  | _, _, [] => []
  | st, d, .enter c as :: es =>
    match enterFn sem c as st with
    | .ok (st', as') =>
      if c.fp then
        .blank d :: .enter d c.id (prescribed profile (hash c.id)) ::
          values d true c.id (formats ((st.vmap (hash c.id)).bind (·.inArgs)) as.length) as as' ++ history sem profile st' (d + 1) es
      else history sem profile st' d es
    | _ => []
  | st, d, .exit c as :: es =>
    match exitFn sem c as st with
    | .ok (st', as') =>
      if c.fp then
        .exit (d - 1) c.id (prescribed profile (hash c.id)) ::
          values (d - 1) false c.id (formats ((st.vmap (hash c.id)).bind (·.outArgs)) as.length) as as' ++
          .blank (d - 1) :: history sem profile st' (d - 1) es
      else history sem profile st' d es
    | _ => []

end Verif.Vfi
