import Verif.Wrapper.Dispatch

/-!
# Start-up of the wrapper

/repo/src/vfcwrapper/main.c.in:258-297 and 388-558.  `strtok_r` writes into the string it is given,
which is the environment string returned by `getenv`; the buffer is part of the model.
A buffer is a list of characters closed by a NUL.

Loading a library (`dlopen`, look-up of its entry points, `pre_init`, `cli`, `init`) is an arbitrary
function of the argument vector and of the state; an empty argument vector stands for
`dlopen(NULL)`.
-/

namespace Verif.Wrapper
open Verif

def nul : Char := Char.ofNat 0

/-- The C string at position `p` of a buffer. -/
def cstr (buf : List Char) (p : Nat) : List Char := (buf.drop p).takeWhile (· != nul)

/-- `strtok_r` (C library) with one delimiter, on the string at `p`: position of the token, buffer
with the delimiter after the token overwritten, position saved for the next call. -/
def strtok (d : Char) (buf : List Char) (p : Nat) : Option (Nat × List Char × Nat) :=
  let s := cstr buf p
  let lead := (s.takeWhile (· == d)).length
  let s' := s.dropWhile (· == d)
  if s' = [] then none
  else
    let w := (s'.takeWhile (· != d)).length
    if w = s'.length then some (p + lead, buf, p + lead + w)
    else some (p + lead, buf.set (p + lead + w) nul, p + lead + w + 1)

/-- `MAX_ARGS`, `MAX_BACKENDS`, main.c.in:80-81. -/
def maxArgs : Nat := 256
def maxBackends : Nat := 16

/-- The loop over the arguments of one backend, :464-471.  `argc` arguments were stored; the
result is the list of the positions of the others.  `fuel` is the length of the buffer. -/
def argLoop (argc : Nat) : Nat → List Char → Nat → Outcome (List Nat × List Char)
  | 0, buf, _ => .ok ([], buf)
  | fuel + 1, buf, p =>
    match strtok ' ' buf p with
    | none => .ok ([], buf)
    | some (a, buf', p') =>
      if argc ≥ maxArgs then .exit
      else argLoop (argc + 1) fuel buf' p' >>= fun r => .ok (a :: r.1, r.2)

/-- The arguments of one backend, :461-472: `backend_argv[backend_argc] = NULL` is a store one past
the end of the array when there are `maxArgs` arguments. -/
def argsOf (buf : List Char) (p : Nat) : Outcome (List (List Char) × List Char) :=
  argLoop 0 (buf.length + 1) buf p >>= fun r =>
    if r.1.length < maxArgs then .ok (r.1.map (cstr r.2), r.2) else .ub

variable {σ B : Type}

/-- The loop over the backends, :458-507.  (The code opens the library before it compares
the number of backends; both failures end the process.) -/
def backendLoop (load : List (List Char) → σ → Outcome (B × σ)) : Nat → List Char → Nat → List B → σ → Outcome (List B × List Char × σ)
  | 0, buf, _, bs, s => .ok (bs, buf, s)
  | fuel + 1, buf, p, bs, s =>
    match strtok ';' buf p with
    | none => .ok (bs, buf, s)
    | some (t, buf1, p') =>
      argsOf buf1 t >>= fun ra =>
      if bs.length = maxBackends then .exit
      else load ra.1 s >>= fun rl => backendLoop load fuel ra.2 p' (bs ++ [rl.1]) rl.2

/-- Environment: the string of `VFC_BACKENDS`, if set; the contents of the file named by
`VFC_BACKENDS_FROM_FILE`, if that variable is set (`some none`: cannot be opened). -/
structure Env where
  backends : Option (List Char)
  fromFile : Option (Option (List Char))
deriving DecidableEq, Repr

/-- `parse_vfc_backends_env`, :264-297: the string to be tokenised.  `getline` reads up to the first
newline, which is removed; an empty file is an error. -/
def source (e : Env) : Outcome (List Char) :=
  match e.backends with
  | some s => .ok s
  | none =>
    match e.fromFile with
    | none => .exit
    | some none => .exit
    | some (some []) => .exit
    | some (some t) => .ok (t.takeWhile (· != '\n'))

/-- `vfc_init`, :388-558, up to the delta-debug filters; also gives the final contents of the
environment string. -/
def vfcInit (load : List (List Char) → σ → Outcome (B × σ)) (check : List B → Outcome Unit) (e : Env) (s : σ) :
    Outcome (List B × Option (List Char) × σ) :=
  source e >>= fun src =>
  let buf := src ++ [nul]
  backendLoop load (buf.length + 1) buf 0 [] s >>= fun r =>
  if r.1 = [] then .exit
  else check r.1 >>= fun _ => .ok (r.1, e.backends.map (fun _ => cstr r.2.1 0), r.2.2)

end Verif.Wrapper
