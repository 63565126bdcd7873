import Verif.Oid.Model
/-! # The shortener of object ids (src/libgit2/oid.c)

A text is the list of the characters of a C string without the terminating zero. The texts that were added are owned by the caller, who keeps them.
Memory allocation does not fail. -/
namespace Verif.Shorten

/-- `trie_node`: src/libgit2/oid.c:319-322. A union: a node stores a tail or children, and reading the one that is not stored is undefined -/
inductive Node where
  | inner (children : List Int)
  | leaf (tail : Bytes)
  deriving DecidableEq, Repr

/-- a node of zero bytes [src/libgit2/oid.c:336] -/
def zero : Node := .inner (List.replicate 16 0)

/-- `git_oid_shorten`: src/libgit2/oid.c:324-328; `size` is the length of `nodes` -/
structure Shorten where
  nodes : List Node
  count : Nat
  minLength : Nat
  full : Bool
  deriving DecidableEq, Repr

/-- `SHRT_MAX` [limits.h, used at src/libgit2/oid.c:355] -/
def SHRT_MAX : Nat := 32767

/-- `GIT_OID_SHA1_HEXSIZE`: include/git2/oid.h -/
def HEXSIZE : Nat := 40

/-- `resize_trie` to twice the size: src/libgit2/oid.c:330-341, 348-351 -/
def grow (os : Shorten) : Shorten :=
  if os.nodes.length ≤ os.count then { os with nodes := os.nodes ++ List.replicate os.nodes.length zero } else os

/-- writes `node->children[at] = v`: src/libgit2/oid.c:361, 499 -/
def setChild (nodes : List Node) (idx : Nat) (at_ : Int) (v : Int) : Res (List Node) :=
  match nodes[idx]? with
  | some (.inner ch) => if 0 ≤ at_ ∧ at_ < ch.length then .ok (nodes.set idx (.inner (ch.set at_.toNat v))) else .ub
  | _ => .ub

/-- `push_leaf`: src/libgit2/oid.c:343-367; the second component is whether it succeeded -/
def pushLeaf (os : Shorten) (idx : Nat) (pushAt : Int) (oid : Bytes) : Res (Shorten × Bool) :=
  let os := grow os
  let idxLeaf := os.count
  let os := { os with count := os.count + 1 }
  if os.count = SHRT_MAX then .ok ({ os with full := true }, false)
  else
    setChild os.nodes idx pushAt (-(idxLeaf : Int)) >>= fun nodes =>
    if idxLeaf < nodes.length then .ok ({ os with nodes := nodes.set idxLeaf (.leaf oid) }, true) else .ub

/-- `git_oid_shorten_new`: src/libgit2/oid.c:369-388 -/
def new (minLength : Nat) : Shorten := { nodes := List.replicate 16 zero, count := 1, minLength := minLength, full := false }

/-- the character of a C string at a position [no code: `s[i]`] -/
def charAt (s : Bytes) (i : Nat) : Res UInt8 :=
  if i < s.length then .ok (s.getD i 0) else if i = s.length then .ok 0 else .ub

/-- a leaf on the way becomes an inner node with a leaf for its tail: src/libgit2/oid.c:472-484 -/
def splitLeaf (os : Shorten) (idx : Nat) : Res (Shorten × Bool) :=
  match os.nodes[idx]? with
  | some (.leaf tail) =>
    let os := { os with nodes := os.nodes.set idx zero }
    charAt tail 0 >>= fun c => pushLeaf os idx (Oid.fromhex c) (tail.drop 1)
  | _ => .ub

/-- `node->children[c]`: src/libgit2/oid.c:486, 495 -/
def child (os : Shorten) (idx : Nat) (c : Int) : Res Int :=
  match os.nodes[idx]? with
  | some (.inner ch) => match ch[c.toNat]? with
    | some j => .ok j
    | none => .ub
  | _ => .ub

/-- the loop of `git_oid_shorten_add`: src/libgit2/oid.c:461-502, with `n` iterations left; the number of the iteration it was left in, or none for an
error -/
def addLoop (text : Bytes) : Nat → Nat → Shorten → Nat → Bool → Res (Shorten × Option Nat)
  | 0, i, os, _, _ => .ok (os, some i)
  | n + 1, i, os, idx, isLeaf =>
    charAt text i >>= fun ch =>
    let c := Oid.fromhex ch
    if c = -1 then .ok (os, none)
    else
      (if isLeaf then splitLeaf os idx else .ok (os, true)) >>= fun r =>
      if r.2 = false then .ok (r.1, none)
      else
        child r.1 idx c >>= fun j =>
        if j = 0 then pushLeaf r.1 idx c (text.drop (i + 1)) >>= fun p => .ok (p.1, if p.2 then some i else none)
        else if j < 0 then
          setChild r.1.nodes idx c (-j) >>= fun nodes => addLoop text n (i + 1) { r.1 with nodes := nodes } (-j).toNat true
        else addLoop text n (i + 1) r.1 j.toNat false

/-- `git_oid_shorten_add` of a text: src/libgit2/oid.c:444-508; the second component is what is returned -/
def add (os : Shorten) (text : Bytes) : Res (Shorten × Int) :=
  if os.full then .ok (os, -1)
  else
    addLoop text HEXSIZE 0 os 0 false >>= fun r =>
    match r.2 with
    | none => .ok (r.1, -1)
    | some i =>
      let os := if r.1.minLength < i + 1 then { r.1 with minLength := i + 1 } else r.1
      .ok (os, os.minLength)

end Verif.Shorten
