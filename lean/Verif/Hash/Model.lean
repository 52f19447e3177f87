/-!
# Hash map and hash set

/repo/src/interflop-stdlib/hashmap/vfc_hashmap.c and /repo/src/vfcwrapper/hashset.c.

Values and keys are 64-bit words, as natural numbers.  The table is a function on indices
below `2^nbits`; every index computed by the code is masked, so it is below `2^nbits`.
The probe loops have no bound in the code; `find` runs them for `2^nbits` iterations,
after which the indices repeat (`find_none`), and returns `none` for an infinite loop.

Not modelled: allocation failure, and the C type of `1 << nbits` (an `int`), which is
wrong from `nbits = 31` on; `C33_capacity` bounds `nbits`.
-/

namespace Verif.Hash

/-- `mask & (hashmap_prime_1 * key)`, vfc_hashmap.c:133 (unsigned 64-bit product). -/
def start (n key : Nat) : Nat := (73 * key % 2 ^ 64) % 2 ^ n

/-- `mask & (ii + hashmap_prime_2)`, vfc_hashmap.c:141. -/
def nextIdx (n i : Nat) : Nat := (i + 5009) % 2 ^ n

/-- The probe loop: the first index from `i` on where `stop` holds. -/
def find (n : Nat) (stop : Nat → Bool) : Nat → Nat → Option Nat
  | 0, _ => none
  | fuel + 1, i => if stop i then some i else find n stop fuel (nextIdx n i)

def search (n : Nat) (stop : Nat → Bool) (key : Nat) : Option Nat :=
  find n stop (2 ^ n) (start n key)

/-! ## Hash map -/

/-- `struct vfc_hashmap_st`, vfc_hashmap.c:27-35 (`capacity = 2^nbits`,
`mask = capacity - 1`).  A slot is (value, key). -/
structure Map where
  nbits : Nat
  slots : Nat → Nat × Nat
  nitems : BitVec 64
  ndel : BitVec 64

/-- Table of zeros (`calloc`). -/
def zeros : Nat → Nat × Nat := fun _ => (0, 0)

/-- `vfc_hashmap_create`, vfc_hashmap.c:91-110. -/
def Map.create : Map := ⟨3, zeros, 0, 0⟩

/-- Store in one slot (`set_value_at`, `set_key_at`, vfc_hashmap.c:116-122). -/
def setSlot (s : Nat → Nat × Nat) (i : Nat) (x : Nat × Nat) : Nat → Nat × Nat :=
  fun j => if j = i then x else s j

/-- `hashmap_add_member`, vfc_hashmap.c:125-153. -/
def Map.addMember (m : Map) (key value : Nat) : Option Map :=
  if value = 0 ∨ value = 1 then some m
  else
    (search m.nbits (fun i => (m.slots i).1 == 0 || (m.slots i).1 == 1 || (m.slots i).1 == value) key).map
      fun i =>
        if (m.slots i).1 = value then m
        else { m with
          slots := setSlot m.slots i (value, key)
          nitems := m.nitems + 1
          ndel := if (m.slots i).1 = 1 then m.ndel - 1 else m.ndel }

/-- Reinsertion loop of `maybe_rehash_map`, vfc_hashmap.c:170-173. -/
def reinsert (old : Nat → Nat × Nat) : Nat → Map → Option Map
  | 0, m => some m
  | t + 1, m => (reinsert old t m).bind fun m => m.addMember (old t).2 (old t).1

/-- `maybe_rehash_map`, vfc_hashmap.c:156-176.  The test is on doubles; `0.85 * 2^nbits` is
never within `2^-52` of an integer, so it is the test on rationals. -/
def Map.rehash (m : Map) : Option Map :=
  if 17 * 2 ^ m.nbits ≤ 20 * (m.nitems + m.ndel).toNat then
    reinsert m.slots (2 ^ m.nbits) ⟨m.nbits + 1, zeros, 0, 0⟩
  else some m

/-- `vfc_hashmap_insert`, vfc_hashmap.c:179-182. -/
def Map.insert (m : Map) (key value : Nat) : Option Map :=
  (m.addMember key value).bind Map.rehash

/-- The loop shared by remove, have and get: stops at an empty slot or at the key. -/
def Map.locate (m : Map) (key : Nat) : Option Nat :=
  search m.nbits (fun i => (m.slots i).1 == 0 || (m.slots i).2 == key) key

/-- `vfc_hashmap_remove`, vfc_hashmap.c:185-198.  The key of the slot is kept. -/
def Map.remove (m : Map) (key : Nat) : Option Map :=
  (m.locate key).map fun i =>
    if (m.slots i).1 = 0 then m
    else { m with
      slots := setSlot m.slots i (1, (m.slots i).2)
      nitems := m.nitems - 1
      ndel := m.ndel + 1 }

/-- `vfc_hashmap_have`, vfc_hashmap.c:201-212. -/
def Map.have_ (m : Map) (key : Nat) : Option Bool :=
  (m.locate key).map fun i => decide ((m.slots i).1 ≠ 0)

/-- `vfc_hashmap_get`, vfc_hashmap.c:215-226; 0 is NULL. -/
def Map.get (m : Map) (key : Nat) : Option Nat :=
  (m.locate key).map fun i => (m.slots i).1

/-- `vfc_hashmap_num_items`, vfc_hashmap.c:229. -/
def Map.numItems (m : Map) : BitVec 64 := m.nitems

/-- Hash of a string, vfc_hashmap.c:232-245, as a number of 64 bits. -/
def strHash (s : List (BitVec 8)) : Nat :=
  (s.foldl (fun (h : BitVec 64) c => h * 31 + c.setWidth 64) 0).toNat

inductive Op
  | insert (key value : Nat)
  | remove (key : Nat)
deriving DecidableEq, Repr

def Map.step (m : Map) : Op → Option Map
  | .insert k v => m.insert k v
  | .remove k => m.remove k

/-- A history of operations from the empty map. -/
def Map.run (ops : List Op) : Option Map := ops.foldlM Map.step Map.create

/-! ## Hash set -/

/-- `struct hashset_st`, main.c.in / hashset.c:21-38. -/
structure HSet where
  nbits : Nat
  items : Nat → Nat
  nitems : BitVec 64
  ndel : BitVec 64

/-- `hashset_create`, hashset.c:21-38. -/
def HSet.create : HSet := ⟨3, fun _ => 0, 0, 0⟩

def setItem (s : Nat → Nat) (i x : Nat) : Nat → Nat := fun j => if j = i then x else s j

/-- `hashset_add_member`, hashset.c:49-73; the result code is dropped. -/
def HSet.addMember (s : HSet) (v : Nat) : Option HSet :=
  if v = 0 ∨ v = 1 then some s
  else
    (search s.nbits (fun i => s.items i == 0 || s.items i == 1 || s.items i == v) v).map fun i =>
      if s.items i = v then s
      else { s with
        items := setItem s.items i v
        nitems := s.nitems + 1
        ndel := if s.items i = 1 then s.ndel - 1 else s.ndel }

/-- Reinsertion loop, hashset.c:89-91. -/
def HSet.reinsert (old : Nat → Nat) : Nat → HSet → Option HSet
  | 0, s => some s
  | t + 1, s => (HSet.reinsert old t s).bind fun s => s.addMember (old t)

/-- `maybe_rehash`, hashset.c:75-94. -/
def HSet.rehash (s : HSet) : Option HSet :=
  if 17 * 2 ^ s.nbits ≤ 20 * (s.nitems + s.ndel).toNat then
    HSet.reinsert s.items (2 ^ s.nbits) ⟨s.nbits + 1, fun _ => 0, 0, 0⟩
  else some s

/-- `hashset_add`, hashset.c:96-100. -/
def HSet.add (s : HSet) (v : Nat) : Option HSet := (s.addMember v).bind HSet.rehash

/-- The loop of `hashset_remove` and `hashset_is_member`, hashset.c:106, 123. -/
def HSet.locate (s : HSet) (v : Nat) : Option Nat :=
  search s.nbits (fun i => s.items i == 0 || s.items i == v) v

/-- `hashset_remove`, hashset.c:102-117. -/
def HSet.remove (s : HSet) (v : Nat) : Option HSet :=
  (s.locate v).map fun i =>
    if s.items i = 0 then s
    else { s with items := setItem s.items i 1, nitems := s.nitems - 1, ndel := s.ndel + 1 }

/-- `hashset_is_member`, hashset.c:119-131. -/
def HSet.isMember (s : HSet) (v : Nat) : Option Bool :=
  (s.locate v).map fun i => decide (s.items i ≠ 0)

inductive SOp
  | add (v : Nat)
  | remove (v : Nat)
deriving DecidableEq, Repr

def HSet.step (s : HSet) : SOp → Option HSet
  | .add v => s.add v
  | .remove v => s.remove v

def HSet.run (ops : List SOp) : Option HSet := ops.foldlM HSet.step HSet.create

end Verif.Hash
