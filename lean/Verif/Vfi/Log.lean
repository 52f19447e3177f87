import Verif.Probes.Hexa
import Verif.Vfi.Model

/-!
# The log of the function instrumentation

`_vfi_print_log` and the functions that use it: /repo/src/backends/interflop-backend-vprec/interflop_vprec_function_instrumentation.c:330-355, 379-387, 501-842.
The hooks are those of `Verif.Vfi.Model`; here they write to the file given by `--prec-log-file` as they go.

The text of numbers is that of glibc's `%a` (`Verif.Probes.Hexa`); a `float` is promoted to `double`.
-/

namespace Verif.Vfi
open Verif Verif.Fp Verif.Vprec.Config

/-- `_vprec_log_file` (open or NULL), `vprec_log_depth` (a `size_t`), and what the file holds. -/
structure Log where
  isOpen : Bool
  depth : Nat
  out : List Char

/-- `_vfi_print_log`, :330-339: the tabs come with every piece of text. -/
def Log.print (l : Log) (t : List Char) : Log :=
  if l.isOpen then { l with out := l.out ++ (List.replicate l.depth '\t' ++ t) } else l

/-- A `float` among variable arguments becomes a `double`. -/
def FTy.promote (t : FTy) (v : Bits) : Bits := if t.fmt = b64 then v else fconv b32 b64 v

def FTy.isPtr : FTy → Bool
  | .float => false | .double => false | .floatPtr => true | .doublePtr => true

/-- The names of the types in the formats of :505-531. -/
def FTy.text : FTy → List Char
  | .float => "float".toList | .double => "double".toList
  | .floatPtr => "float_ptr".toList | .doublePtr => "double_ptr".toList

/-- What the formats of :505-531 print before the value. -/
def lead (inp : Bool) (fid : Id) (a : Arg) (j : Nat) : List Char :=
  " - ".toList ++ ((if inp then "input".toList else "output".toList) ++ ('\t' :: (fid ++
    ((if a.ty.isPtr then '[' :: (dec j ++ [']']) else []) ++ ('\t' :: (a.ty.text ++ ('\t' :: (a.id ++ ['\t']))))))))

/-- `_vfi_print_log_helper`, :501-544, with `raw_value` at element `j`.  The value is read only if the file is open. -/
def logHead (inp : Bool) (fid : Id) (a : Arg) (j : Nat) (l : Log) : Outcome Log :=
  if l.isOpen then
    match a.mem with
    | none => if a.ty.isPtr then .ok (l.print (lead inp fid a j ++ "NULL\t->\t".toList)) else .ub
    | some mem =>
      match mem[j]? with
      | none => .ub
      | some v => .ok (l.print (lead inp fid a j ++ (Probes.hexA (a.ty.promote v) ++ "\t->\t".toList)))
  else .ok l

/-- The end of a line, :646-647, 655-656, 673-674, 691-692 (enter) and 785-786, 794-795, 814-815, 836-837 (exit), element `j` of the memory. -/
def logTail (inp : Bool) (ty : FTy) (mem : List Bits) (j : Nat) (expLen manLen : Int) (l : Log) : Outcome Log :=
  if l.isOpen then
    match mem[j]? with
    | none => .ub
    | some v => .ok (l.print (Probes.hexA (ty.promote v) ++ ("\t(".toList ++ (dec manLen ++ ((if inp then ", ".toList else ",".toList) ++
        (dec expLen ++ ")\n".toList))))))
  else .ok l

/-- The loop over a pointer argument, :665-675 and 683-693 (enter), 803-816 and 825-838 (exit).  At exit the beginning of the line is printed twice. -/
def ptrLoopL (sem : ShiftSem) (c : Cfg) (inp new modeFlag : Bool) (fid : Id) (a : Arg) (expLen manLen : Int) :
    Nat → Nat → (List Bits × ArgData) × Log → Outcome ((List Bits × ArgData) × Log)
  | 0, _, s => .ok s
  | n + 1, j, (s, l) => do
    let l ← logHead inp fid { a with mem := some s.1 } j l
    let l ← (if inp then .ok l else logHead inp fid { a with mem := some s.1 } j l)
    let s ← touch sem c inp new modeFlag a.ty expLen manLen s
    let l ← logTail inp a.ty s.1 j expLen manLen l
    ptrLoopL sem c inp new modeFlag fid a expLen manLen n (j + 1) (s, l)

/-- The body of the loop over arguments, :632-694 (enter) and 769-839 (exit). -/
def doArgL (sem : ShiftSem) (c : Cfg) (inp new modeFlag : Bool) (fid : Id) (a : Arg) (d : ArgData) (l : Log) :
    Outcome ((Arg × ArgData) × Log) :=
  let d' := if new then initArg a else d
  match a.mem with
  | some mem =>
    if a.ty.isPtr then do
      let l ← logHead inp fid a 0 l
      let (s, l) ← ptrLoopL sem c inp new modeFlag fid a d.expLen d.manLen a.size 0 ((mem, d'), l)
      return (({ a with mem := some s.1 }, s.2), l)
    else do
      let l ← logHead inp fid a 0 l
      let s ← touch sem c inp new modeFlag a.ty d.expLen d.manLen (mem, d')
      let l ← logTail inp a.ty s.1 0 d.expLen d.manLen l
      return (({ a with mem := some s.1 }, s.2), l)
  | none => if a.ty.isPtr then do
      let l ← logHead inp fid a 0 l
      return ((a, d'), l)
    else .ub

/-- The loop over arguments, :625-695 and 763-840. -/
def doArgsL (sem : ShiftSem) (c : Cfg) (inp new modeFlag : Bool) (fid : Id) :
    List Arg → List ArgData → Log → Outcome ((List Arg × List ArgData) × Log)
  | [], ds, l => .ok (([], ds), l)
  | _ :: _, [], _ => .ub
  | a :: as, d :: ds, l => do
    let ((a, d), l) ← doArgL sem c inp new modeFlag fid a d l
    let ((as, ds), l) ← doArgsL sem c inp new modeFlag fid as ds l
    return ((a :: as, d :: ds), l)

/-- Allocation of the records, then the loop, :611-615 and 749-753. -/
def withArgsL (sem : ShiftSem) (c : Cfg) (inp modeFlag : Bool) (fid : Id) (args : List Arg)
    (recs : Option (List ArgData)) (l : Log) : Outcome ((List Arg × Option (List ArgData)) × Log) :=
  let new := recs.isNone && decide (0 < args.length)
  let recs := if new then some (List.replicate args.length zeroArg) else recs
  match recs, args with
  | none, [] => .ok (([], none), l)
  | none, _ :: _ => .ub
  | some ds, as => do
    let ((as, ds), l) ← doArgsL sem c inp new modeFlag fid as ds l
    return ((as, some ds), l)

/-- `"%s\t%d\t%d\t%d\t%d\n"`, :606-608 and 744-746. -/
def opsText (f : Fn) : List Char :=
  f.info.id ++ ('\t' :: (dec f.prec64 ++ ('\t' :: (dec f.range64 ++ ('\t' :: (dec f.prec32 ++ ('\t' :: (dec f.range32 ++ ['\n']))))))))

/-- `_vfi_enter_function`, :549-699. -/
def vfiEnterL (sem : ShiftSem) (st : St) (args : List Arg) (l : Log) : Outcome ((St × List Arg) × Log) := do
  let info ← st.stack.rd st.stack.top
  match info with
  | none => .exit
  | some fi =>
    let fn := (st.vmap (hash fi.id)).getD (newFn fi)
    let n ← incr fn.nCalls
    let cfg ← (if setsOps st.inst fi then setOps fn st.cfg else .ok st.cfg)
    let l := (l.print ['\n']).print ("enter in ".toList ++ opsText fn)
    let modeFlag := (cfg.mode = .full ∨ cfg.mode = .ib) ∧ (st.inst = .all ∨ st.inst = .arg)
    let ((args, recs), l) ← withArgsL sem cfg true modeFlag fn.info.id args fn.inArgs l
    return (({ st with vmap := put st.vmap (hash fi.id) { fn with nCalls := n, inArgs := recs }, cfg }, args),
      { l with depth := (l.depth + 1) % 2 ^ 64 })

/-- `_vfi_exit_function`, :704-842. -/
def vfiExitL (sem : ShiftSem) (st : St) (args : List Arg) (l : Log) : Outcome ((St × List Arg) × Log) := do
  let info ← st.stack.rd st.stack.top
  let l := { l with depth := (l.depth + (2 ^ 64 - 1)) % 2 ^ 64 }
  match info with
  | none => .exit
  | some fi =>
    let parent ← st.stack.rd (st.stack.top + 1)
    let cfg ← restore st parent
    match st.vmap (hash fi.id) with
    | none => .ub
    | some fn =>
      let l := l.print ("exit of ".toList ++ opsText fn)
      let modeFlag := (cfg.mode = .full ∨ cfg.mode = .ob) ∧ (st.inst = .all ∨ st.inst = .arg)
      let ((args, recs), l) ← withArgsL sem cfg false modeFlag fn.info.id args fn.outArgs l
      return (({ st with vmap := put st.vmap (hash fi.id) { fn with outArgs := recs }, cfg }, args), l.print ['\n'])

/-- `vfc_enter_function`, funcinstr.c:123-153. -/
def enterFnL (sem : ShiftSem) (c : Info) (args : List Arg) (st : St) (l : Log) : Outcome ((St × List Arg) × Log) := do
  let f := (st.tab (hash c.id)).getD c
  let tab := put st.tab (hash c.id) f
  let stack ← st.stack.push f
  let st := { st with tab, stack }
  if c.fp then vfiEnterL sem st args l else return ((st, args), l)

/-- `vfc_exit_function`, funcinstr.c:156-176. -/
def exitFnL (sem : ShiftSem) (c : Info) (args : List Arg) (st : St) (l : Log) : Outcome ((St × List Arg) × Log) := do
  let ((st, args), l) ← (if c.fp then vfiExitL sem st args l else return ((st, args), l))
  let stack ← st.stack.pop
  return (({ st with stack }, args), l)

/-- One hook. -/
def stepL (sem : ShiftSem) (s : St × Log) : Ev → Outcome (St × Log)
  | .enter c args => do let r ← enterFnL sem c args s.1 s.2; return (r.1.1, r.2)
  | .exit c args => do let r ← exitFnL sem c args s.1 s.2; return (r.1.1, r.2)

/-- Hooks one after the other. -/
def runL (sem : ShiftSem) : St × Log → List Ev → Outcome (St × Log)
  | s, [] => .ok s
  | s, e :: es => do let s ← stepL sem s e; runL sem s es

/-- `_vfi_init_context` and `_vfi_init`, :347-355 and 379-388: depth 0, an empty file if one was given. -/
def logInit (given : Bool) : Log := ⟨given, 0, []⟩

end Verif.Vfi
