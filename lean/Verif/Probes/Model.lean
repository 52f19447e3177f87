import Verif.Base.Outcome
import Verif.Hash.Model
import Verif.Probes.Hexa

/-!
# Probes

/repo/src/common/vfc_probes.c.

A name is a C string: the characters before the terminating NUL, those above 255 excluded (a
character stands for one byte).  Nodes live in a heap indexed by addresses; `addr n` is the
address of the `n`-th allocated node, an arbitrary function whose properties (distinct
addresses, none of them 0 or 1) are hypotheses of the theorems.  The table is that of
`Verif.Hash`; an infinite loop in it, which has no side effect, is undefined behaviour
(C11 6.8.5p6).

Not modelled: NULL `probes`, failure of `malloc`; the Fortran wrappers are in Probes/Fortran.lean.
-/

namespace Verif.Probes
open Verif Verif.Fp Verif.Hash

/-- `struct vfc_probe_node`, vfc_probes.c:40-46. -/
structure Node where
  key : List Char
  value : Bits
  threshold : Bits
  mode : List Char
deriving DecidableEq, Repr

/-- The table and the nodes that are allocated. -/
structure State where
  map : Map
  heap : List (Nat × Node)
  count : Nat

/-- `vfc_init_probes`, :92-97. -/
def State.init : State := ⟨Map.create, [], 0⟩

/-- The node at an address. -/
def State.node (st : State) (p : Nat) : Option Node := (st.heap.find? (fun x => x.1 == p)).map (·.2)

/-- `vfc_hashmap_str_function`, on the bytes of the string. -/
def hash (s : List Char) : Nat := strHash (s.map fun c => BitVec.ofNat 8 c.toNat)

/-- `gen_probe_key`, :121-128. -/
def genKey (test var : List Char) : List Char := test ++ ',' :: var

/-- A call: names, value, threshold and mode. -/
structure Call where
  test : List Char
  var : List Char
  value : Bits
  threshold : Bits
  mode : List Char
deriving DecidableEq, Repr

/-- `vfc_probe`, :191-195. -/
def probe (test var : List Char) (x : Bits) : Call := ⟨test, var, x, zeroBits false, "none".toList⟩
/-- `vfc_probe_check`, :199-203. -/
def probeCheck (test var : List Char) (x thr : Bits) : Call := ⟨test, var, x, thr, "absolute".toList⟩
/-- `vfc_probe_check_relative`, :207-211. -/
def probeCheckRel (test var : List Char) (x thr : Bits) : Call := ⟨test, var, x, thr, "relative".toList⟩

/-- `vfc_probe_kernel`, :147-187, with `validate_probe_key`, :131-143 (`exit(1)` on a comma). -/
def record (addr : Nat → Nat) (st : State) (c : Call) : Outcome State :=
  if ',' ∈ c.test then .exit
  else if ',' ∈ c.var then .exit
  else
    let key := genKey c.test c.var
    match st.map.get (hash key) with
    | none => .ub
    | some old =>
      (if old ≠ 0 then
        match st.node old with
        | none => .ub
        | some n => if key = n.key then .exit else .ok ()
       else .ok ()) >>= fun _ =>
      match st.map.insert (hash key) (addr st.count) with
      | none => .ub
      | some m => .ok ⟨m, (addr st.count, ⟨key, c.value, c.threshold, c.mode⟩) :: st.heap, st.count + 1⟩

/-- A sequence of calls. -/
def run (addr : Nat → Nat) (cs : List Call) : Outcome State := cs.foldlM (record addr) State.init

/-- `vfc_num_probes`, :214-216 (`unsigned int`). -/
def numProbes (st : State) : Nat := st.map.numItems.toNat % 2 ^ 32

/-- First line of the file, :246. -/
def header : List Char := "test,variable,value,accuracy_threshold,check_mode\n".toList

/-- `"%s,%a,%a,%s\n"`, :253-254. -/
def row (n : Node) : List Char := n.key ++ ',' :: (hexA n.value ++ ',' :: (hexA n.threshold ++ ',' :: (n.mode ++ ['\n'])))

/-- The loop of the dump on the first `t` slots, :250-256: any value but NULL is dereferenced. -/
def rows (st : State) : Nat → Outcome (List Char)
  | 0 => .ok []
  | t + 1 => rows st t >>= fun txt =>
    if (st.map.slots t).1 ≠ 0 then
      match st.node (st.map.slots t).1 with
      | none => .ub
      | some n => .ok (txt ++ row n)
    else .ok txt

/-- `vfc_free_probes`, :100-118, with `vfc_hashmap_free`, vfc_hashmap.c:248-252: each value of
the table is dereferenced and freed; the table keeps the dangling pointers.  The two loops of
the code (contents of the nodes, then the nodes) are one here. -/
def freeAll (st : State) : Nat → Outcome (List (Nat × Node))
  | 0 => .ok st.heap
  | t + 1 => freeAll st t >>= fun h =>
    if (st.map.slots t).1 ≠ 0 then
      if h.any (fun x => x.1 == (st.map.slots t).1) then .ok (h.filter fun x => x.1 != (st.map.slots t).1) else .ub
    else .ok h

/-- State of the environment variable and of the file it names, :226-243. -/
inductive Output
  | unset
  | unwritable
  | file
deriving DecidableEq, Repr

/-- `vfc_dump_probes`, :220-264: the text written, if any. -/
def dump (o : Output) (st : State) : Outcome (Option (List Char) × State) :=
  match o with
  | .unset => freeAll st (2 ^ st.map.nbits) >>= fun h => .ok (none, { st with heap := h })
  | .unwritable => .exit
  | .file =>
    rows st (2 ^ st.map.nbits) >>= fun txt =>
    freeAll st (2 ^ st.map.nbits) >>= fun h => .ok (some (header ++ txt), { st with heap := h })

end Verif.Probes
