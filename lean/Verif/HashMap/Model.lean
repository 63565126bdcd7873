import Verif.Base
/-! # Model of `src/util/hashmap.h` (the generic open-addressing hash map)

The macro-generated functions are modelled for an arbitrary key type with decidable equality (`__equal_fn`) and an arbitrary hash
function (`__hash_fn`). Arrays are functions on indices; `kv i = none` is memory never written, reading it is `ub`.
A bucket's two flag bits are the three values of `Flag` (the bit layout of `flags` and allocation failure are not modelled).
The 32-bit counters are natural numbers; growth beyond `2^31` buckets, where `GIT_HASHMAP_ROUNDUP` wraps, is `ub`. -/
namespace Verif.HashMap

/-- the two flag bits of a bucket: `GIT_HASHMAP_IS_EMPTY`, `GIT_HASHMAP_IS_DELETE`, src/util/hashmap.h:47-49 -/
inductive Flag where
  | empty | deleted | live
  deriving DecidableEq, Repr

/-- `GIT_HASHMAP_STRUCT_MEMBERS`: src/util/hashmap.h:66-73 -/
structure Map (K V : Type) where
  n : Nat
  size : Nat
  occ : Nat
  ub : Nat
  flag : Nat → Flag
  kv : Nat → Option (K × V)

variable {K V : Type} [DecidableEq K]

/-- `GIT_HASHMAP_INIT`: src/util/hashmap.h:42 -/
def init : Map K V := ⟨0, 0, 0, 0, fun _ => .empty, fun _ => none⟩

/-- update an array at one index [no code: `a[i] = v`] -/
def upd {β : Type} (f : Nat → β) (i : Nat) (b : β) : Nat → β := fun j => if j = i then b else f j

/-- `(uint32_t)(n_buckets * 0.77 + 0.5)`: src/util/hashmap.h:163, :237 (exact for powers of two, where the `double` product is exact
up to one rounding of the constant) -/
def upperBound (n : Nat) : Nat := (77 * n + 50) / 100

/-- the loop condition of the probe, `IS_EMPTY(i)` or a live bucket with an equal key stops it: src/util/hashmap.h:115-116, :264 -/
def probeStop (h : Map K V) (key : K) (i : Nat) : Res Bool :=
  match h.flag i with
  | .empty => .ok true
  | .deleted => .ok false
  | .live => match h.kv i with
    | none => .ub
    | some (k, _) => .ok (k = key)

/-- the `while` loop of `__idx`: src/util/hashmap.h:115-123 -/
def idxLoop (h : Map K V) (key : K) (last : Nat) : Nat → Nat → Nat → Res Nat
  | 0, _, _ => .ub
  | fuel + 1, i, step =>
    match probeStop h key i with
    | .err e => .err e
    | .ub => .ub
    | .ok true => if h.flag i ≠ .live then .err (-3) else .ok i
    | .ok false =>
      if (i + (step + 1)) &&& (h.n - 1) = last then .err (-3)
      else idxLoop h key last fuel ((i + (step + 1)) &&& (h.n - 1)) (step + 1)

/-- `__idx`: src/util/hashmap.h:105-128 (`GIT_ENOTFOUND` is -3) -/
def idx (hash : K → Nat) (h : Map K V) (key : K) : Res Nat :=
  if h.n = 0 then .err (-3)
  else idxLoop h key (hash key &&& (h.n - 1)) (2 * h.n) (hash key &&& (h.n - 1)) 0

/-- `_get`: src/util/hashmap.h:325-332 -/
def get (hash : K → Nat) (h : Map K V) (key : K) : Res V :=
  match idx hash h key with
  | .ok i => match h.kv i with
    | none => .ub
    | some (_, v) => .ok v
  | .err e => .err e
  | .ub => .ub

/-- `_contains`: src/util/hashmap.h:129-133 -/
def contains (hash : K → Nat) (h : Map K V) (key : K) : Res Bool :=
  match idx hash h key with
  | .ok _ => .ok true
  | .err _ => .ok false
  | .ub => .ub

/-- `_remove` with `__remove_at_idx`: src/util/hashmap.h:134-150 -/
def remove (hash : K → Nat) (h : Map K V) (key : K) : Res (Map K V) :=
  match idx hash h key with
  | .ok i =>
    if i < h.n ∧ h.flag i = .live then .ok { h with flag := upd h.flag i .deleted, size := h.size - 1 }
    else .err (-3)
  | .err e => .err e
  | .ub => .ub

/-! ## Rehashing -/

/-- State of the rehash: `h->flags` (live or not), `new_flags` (occupied or not), and the key/value arrays shared by both. [src/util/hashmap.h:175-235 (the two arrays of flags while moving)] -/
structure Rehash (K V : Type) where
  old : Nat → Bool
  new : Nat → Bool
  kv : Nat → Option (K × V)

/-- `while (!IS_EMPTY(new_flags, i)) i = (i + (++step)) & new_mask`: src/util/hashmap.h:203-204 -/
def freeSlot (new : Nat → Bool) (n : Nat) : Nat → Nat → Nat → Res Nat
  | 0, _, _ => .ub
  | fuel + 1, i, step => if new i then freeSlot new n fuel ((i + (step + 1)) &&& (n - 1)) (step + 1) else .ok i

/-- one round of the kick-out loop: src/util/hashmap.h:199-227. Returns the new state and the element kicked out, if any. -/
def kickStep (hash : K → Nat) (n newN : Nat) (s : Rehash K V) (p : K × V) : Res (Rehash K V × Option (K × V)) :=
  match freeSlot s.new newN newN (hash p.1 &&& (newN - 1)) 0 with
  | .err e => .err e
  | .ub => .ub
  | .ok i =>
    if i < n ∧ s.old i then
      match s.kv i with
      | none => .ub
      | some q => .ok (⟨upd s.old i false, upd s.new i true, upd s.kv i (some p)⟩, some q)
    else .ok (⟨s.old, upd s.new i true, upd s.kv i (some p)⟩, none)

/-- the kick-out loop `while (1)`: src/util/hashmap.h:197-228 -/
def kick (hash : K → Nat) (n newN : Nat) : Nat → Rehash K V → K × V → Res (Rehash K V)
  | 0, _, _ => .ub
  | fuel + 1, s, p =>
    match kickStep hash n newN s p with
    | .ok (s, some q) => kick hash n newN fuel s q
    | .ok (s, none) => .ok s
    | .err e => .err e
    | .ub => .ub

/-- one iteration of the rehash loop for bucket `j`: src/util/hashmap.h:188-229 -/
def rehashStep (hash : K → Nat) (n newN : Nat) (s : Rehash K V) (j : Nat) : Res (Rehash K V) :=
  if s.old j then
    match s.kv j with
    | none => .ub
    | some p => kick hash n newN (n + 1) { s with old := upd s.old j false } p
  else .ok s

/-- `for (j = 0; j != h->n_buckets; ++j)`: src/util/hashmap.h:187-230; `k` iterations left -/
def rehashLoop (hash : K → Nat) (n newN : Nat) : Nat → Nat → Rehash K V → Res (Rehash K V)
  | 0, _, s => .ok s
  | k + 1, j, s =>
    match rehashStep hash n newN s j with
    | .ok s => rehashLoop hash n newN k (j + 1) s
    | .err e => .err e
    | .ub => .ub

/-- `GIT_HASHMAP_ROUNDUP` followed by the minimum of 4: src/util/hashmap.h:57-58, :160-162. The smallest power of two that is
at least `x` (and at least 4), found by doubling; the C code computes it by bit smearing. -/
def roundupLoop (x : Nat) : Nat → Nat → Nat
  | 0, p => p
  | fuel + 1, p => if x ≤ p then p else roundupLoop x fuel (2 * p)

/-- [src/util/hashmap.h:57] -/
def roundup (x : Nat) : Nat := roundupLoop x x 4

/-- `__resize`: src/util/hashmap.h:151-240 -/
def resize (hash : K → Nat) (h : Map K V) (newN : Nat) : Res (Map K V) :=
  let newN := roundup newN
  if 2 ^ 31 < newN then .ub
  else if upperBound newN ≤ h.size then .ok h
  else
    match rehashLoop hash h.n newN h.n 0 ⟨fun i => h.flag i = .live, fun _ => false, h.kv⟩ with
    | .err e => .err e
    | .ub => .ub
    | .ok s => .ok { n := newN, size := h.size, occ := h.size, ub := upperBound newN,
                     flag := fun i => if s.new i then .live else .empty, kv := s.kv }

/-! ## Insertion -/

/-- the probe loop of `__put_idx`: src/util/hashmap.h:262-278. `site = h.n` means no tombstone was passed. -/
def putLoop (h : Map K V) (key : K) (last : Nat) : Nat → Nat → Nat → Nat → Res Nat
  | 0, _, _, _ => .ub
  | fuel + 1, i, step, site =>
    match probeStop h key i with
    | .err e => .err e
    | .ub => .ub
    | .ok true => if h.flag i = .empty ∧ site ≠ h.n then .ok site else .ok i
    | .ok false =>
      let site := if h.flag i = .deleted then i else site
      let i' := (i + (step + 1)) &&& (h.n - 1)
      if i' = last then (if site ≠ h.n then .ok site else .ok i')
      else putLoop h key last fuel i' (step + 1) site

/-- growing before an insertion: src/util/hashmap.h:244-253 -/
def grow (hash : K → Nat) (h : Map K V) : Res (Map K V) :=
  if h.ub ≤ h.occ then
    if 2 * h.size < h.n then resize hash h (h.n - 1) else resize hash h (h.n + 1)
  else .ok h

/-- storing at the bucket `x` that was found: src/util/hashmap.h:280-298 and `_put`, :333-345 -/
def store (h : Map K V) (key : K) (v : V) (x : Nat) : Map K V :=
  let h' := { h with kv := upd h.kv x (some (key, v)), flag := upd h.flag x .live }
  match h.flag x with
  | .empty => { h' with size := h.size + 1, occ := h.occ + 1 }
  | .deleted => { h' with size := h.size + 1 }
  | .live => h'

/-- `_put` with `__put_idx`: src/util/hashmap.h:241-301, :333-345 -/
def put (hash : K → Nat) (h : Map K V) (key : K) (v : V) : Res (Map K V) := do
  let h ← grow hash h
  if h.n = 0 then .ub
  else
    let i := hash key &&& (h.n - 1)
    let x ← putLoop h key i (2 * h.n) i 0 h.n
    .ok (store h key v x)

/-- `_clear`: src/util/hashmap.h:302-308 -/
def clear (h : Map K V) : Map K V := if h.n = 0 then h else { h with flag := fun _ => .empty, size := 0, occ := 0 }

/-- the entries `_iterate` yields, in order: src/util/hashmap.h:346-359 -/
def entries (h : Map K V) : List (K × V) :=
  (List.range h.n).filterMap (fun i => if h.flag i = .live then h.kv i else none)

/-- the loop of the set flavour of `_iterate`: src/util/hashmap.h:388-396; `GIT_ITEROVER` is -31. Returns the key and the iterator. -/
def setIterLoop (h : Map K V) : Nat → Nat → Res (K × Nat)
  | 0, _ => .err (-31)
  | fuel + 1, it =>
    if it < h.n then
      if h.flag it = .live then
        match h.kv it with
        | none => .ub
        | some p => .ok (p.1, it)
      else setIterLoop h fuel (it + 1)
    else .err (-31)

/-- `_iterate` of a set: src/util/hashmap.h:394-403 -/
def setIterate (h : Map K V) (it : Nat) : Res (K × Nat) := setIterLoop h (h.n - it + 1) it

end Verif.HashMap
