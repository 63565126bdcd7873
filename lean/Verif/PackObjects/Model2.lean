import Verif.PackObjects.Model
/-! # Model of `src/libgit2/pack-objects.c`, second part: the order in which objects are written, and writing them -/
namespace Verif.PackObjects

/-! ## The order -/

/-- `delta_child` and `delta_sibling` [src/libgit2/pack-objects.h:40-43] -/
structure Links where
  child : Nat → Option Nat
  sibling : Nat → Option Nat

/-- connecting the children: the loop from the last object to the first [src/libgit2/pack-objects.c:554-566] -/
def connect (delta : Nat → Option Nat) : Nat → Links → Links
  | 0, L => L
  | i + 1, L => match delta i with
    | none => connect delta i L
    | some b => connect delta i ⟨upd L.child b (some i), upd L.sibling i (L.child b)⟩

/-- `wo` with `wo_end`, and the `filled` flags [src/libgit2/pack-objects.c:531-532] -/
structure Order where
  wo : List Nat
  filled : Nat → Bool

/-- `add_to_write_order` [src/libgit2/pack-objects.c:451-458] -/
def addOne (i : Nat) (o : Order) : Order :=
  if o.filled i then o else ⟨o.wo ++ [i], upd o.filled i true⟩

/-- `for (s = po->delta_sibling; s; s = s->delta_sibling)`; not ending is `ub` [src/libgit2/pack-objects.c:470-472] -/
def addSiblings (L : Links) : Nat → Option Nat → Order → Res Order
  | _, none, o => .ok o
  | 0, some _, _ => .ub
  | fuel + 1, some s, o => addSiblings L fuel (L.sibling s) (addOne s o)

/-- going up until one can go right: `while (po && !po->delta_sibling)` [src/libgit2/pack-objects.c:486-491] -/
def climb (delta : Nat → Option Nat) (L : Links) : Nat → Option Nat → Res (Option Nat)
  | _, none => .ok none
  | 0, some _ => .ub
  | fuel + 1, some p => match L.sibling p with
    | some _ => .ok (some p)
    | none => climb delta L fuel (delta p)

/-- the step to the next object once the children of `po` are done; `none` is the end [src/libgit2/pack-objects.c:479-497] -/
def goOn (delta : Nat → Option Nat) (L : Links) (fuel po : Nat) : Res (Option Nat) :=
  match L.sibling po with
  | some s => .ok (some s)
  | none => match climb delta L fuel (delta po) with
    | .ub => .ub
    | .err e => .err e
    | .ok none => .ok none
    | .ok (some p) => .ok (L.sibling p)

/-- adding a node and all its siblings, if that is to be done [src/libgit2/pack-objects.c:465-473] -/
def addLevel (L : Links) (fuel po : Nat) (add : Bool) (o : Order) : Res Order :=
  if add then addSiblings L fuel (L.sibling po) (addOne po o) else .ok o

/-- `add_descendants_to_write_order` [src/libgit2/pack-objects.c:460-500] -/
def descendants (delta : Nat → Option Nat) (L : Links) : Nat → Option Nat → Bool → Order → Res Order
  | _, none, _, o => .ok o
  | 0, some _, _, _ => .ub
  | fuel + 1, some po, add, o =>
    match addLevel L fuel po add o with
    | .ub => .ub
    | .err e => .err e
    | .ok o => match L.child po with
      | some c => descendants delta L fuel (some c) true o
      | none => match goOn delta L fuel po with
        | .ub => .ub
        | .err e => .err e
        | .ok next => descendants delta L fuel next false o

/-- `for (root = po; root->delta; root = root->delta)` [src/libgit2/pack-objects.c:507-508] -/
def rootOf (delta : Nat → Option Nat) : Nat → Nat → Res Nat
  | 0, _ => .ub
  | fuel + 1, po => match delta po with
    | none => .ok po
    | some b => rootOf delta fuel b

/-- `add_family_to_write_order` [src/libgit2/pack-objects.c:502-510] -/
def family (delta : Nat → Option Nat) (L : Links) (fuel po : Nat) (o : Order) : Res Order :=
  match rootOf delta fuel po with
  | .ub => .ub
  | .err e => .err e
  | .ok root => descendants delta L fuel (some root) true o

/-- the last loop of `compute_write_order` [src/libgit2/pack-objects.c:614-618] -/
def families (delta : Nat → Option Nat) (L : Links) (fuel : Nat) : List Nat → Order → Res Order
  | [], o => .ok o
  | i :: is, o =>
    if o.filled i then families delta L fuel is o
    else match family delta L fuel i o with
      | .ub => .ub
      | .err e => .err e
      | .ok o => families delta L fuel is o

/-- a loop that adds the objects of a range that pass a test [src/libgit2/pack-objects.c:583-612] -/
def addWhere (p : Nat → Bool) (l : List Nat) (o : Order) : Order := (l.filter p).foldl (fun o i => addOne i o) o

/-- `last_untagged`: the first tagged object [src/libgit2/pack-objects.c:572-577] -/
def lastUntagged (tagged : Nat → Bool) (n : Nat) : Nat := ((List.range n).takeWhile fun i => !tagged i).length

/-- the links of all objects [src/libgit2/pack-objects.c:542-566] -/
def links (delta : Nat → Option Nat) (n : Nat) : Links := connect delta n ⟨fun _ => none, fun _ => none⟩

/-- `compute_write_order` up to its last loop [src/libgit2/pack-objects.c:572-612] -/
def orderStart (objs : List PObj) (tagged : Nat → Bool) : Order :=
  let n := objs.length
  let first := lastUntagged tagged n
  let tail := (List.range n).drop first
  let o := addWhere (fun _ => true) ((List.range n).take first) ⟨[], fun _ => false⟩
  let o := addWhere tagged tail o
  let o := addWhere (fun i => decide ((objAt objs i).type = 1) || decide ((objAt objs i).type = 4)) tail o
  addWhere (fun i => decide ((objAt objs i).type = 2)) tail o

/-- `compute_write_order` [src/libgit2/pack-objects.c:529-631]. `tagged` is what `git_tag_foreach` marks. -/
def writeOrder (objs : List PObj) (tagged : Nat → Bool) (delta : Nat → Option Nat) (fuel : Nat) : Res (List Nat) :=
  match families delta (links delta objs.length) fuel ((List.range objs.length).drop (lastUntagged tagged objs.length)) (orderStart objs tagged) with
  | .ub => .ub
  | .err e => .err e
  | .ok o => if o.wo.length ≠ objs.length then .err (-1) else .ok o.wo

/-! ## Writing -/

/-- `get_delta` [src/libgit2/pack-objects.c:276-312] -/
def getDelta (E : Env) (objs : List PObj) (i base dsize : Nat) : Res Bytes :=
  match E.odb (objAt objs base).id, E.odb (objAt objs i).id with
  | some (_, sd), some (_, td) =>
    match Delta.create sd td 0 with
    | .ub => .ub
    | .err _ => .err (-1)
    | .ok none => .err (-1)
    | .ok (some d) => if d.length ≠ dsize then .err (-1) else .ok d
  | _, _ => .err (-1)

/-- what `write_object` writes: its type, the size for the header, and the buffer [src/libgit2/pack-objects.c:329-347] -/
def payload (E : Env) (objs : List PObj) (i : Nat) (t : DState) : Res (Nat × Nat × Bytes) :=
  match t.delta with
  | some b => match t.data with
    | some d => .ok (Pack.REF_DELTA, t.dsize, d)
    | none => match getDelta E objs i b t.dsize with
      | .ub => .ub
      | .err e => .err e
      | .ok d => .ok (Pack.REF_DELTA, t.dsize, d)
  | none => match E.odb (objAt objs i).id with
    | none => .err (-3)
    | some (type, d) => .ok (type, d.length, d)

/-- the id of the base, for a delta [src/libgit2/pack-objects.c:355-359] -/
def baseId (objs : List PObj) (t : DState) : Bytes := match t.delta with
  | none => []
  | some b => (objAt objs b).id

/-- the compressed bytes: as they are if they were compressed before [src/libgit2/pack-objects.c:362-386] -/
def compressed (E : Env) (t : DState) (len : Nat) (data : Bytes) : Res Bytes :=
  if t.zsize ≠ 0 then slice data 0 t.zsize
  else match slice data 0 len with
    | .ub => .ub
    | .err e => .err e
    | .ok b => .ok (E.deflate b)

/-- all bytes that `write_object` writes for an object [src/libgit2/pack-objects.c:314-407] -/
def entryBytes (E : Env) (objs : List PObj) (i : Nat) (t : DState) : Res Bytes :=
  match payload E objs i t with
  | .ub => .ub
  | .err e => .err e
  | .ok (type, len, data) => match Pack.objectHeader len type with
    | .ub => .ub
    | .err e => .err e
    | .ok hdr => match compressed E t len data with
      | .ub => .ub
      | .err e => .err e
      | .ok z => .ok (hdr ++ baseId objs t ++ z)

/-- the state of writing: the objects, the flags `written` and `recursing`, what the callback got and what the hash got [src/libgit2/pack-objects.c:314-449] -/
structure WState where
  ds : Nat → DState
  written : Nat → Bool
  recursing : Nat → Bool
  out : Bytes
  hashed : Bytes

/-- a `write_cb` with its `git_hash_update` [src/libgit2/pack-objects.c:350-352] -/
def emit (bs : Bytes) (s : WState) : WState := { s with out := s.out ++ bs, hashed := s.hashed ++ bs }

/-- the end of `write_object`: the delta is freed [src/libgit2/pack-objects.c:395-398] -/
def release (t : DState) : DState := if t.delta.isSome then { t with data := none } else t

/-- `write_object` [src/libgit2/pack-objects.c:314-407] -/
def writeObject (E : Env) (objs : List PObj) (i : Nat) (s : WState) : Res WState :=
  match entryBytes E objs i (s.ds i) with
  | .ub => .ub
  | .err e => .err e
  | .ok bs => .ok { emit bs s with ds := upd s.ds i (release (s.ds i)) }

/-- `write_one_status` [src/libgit2/pack-objects.c:409-414] -/
inductive Status where
  | skip | written | recursive
  deriving DecidableEq, Repr

/-- the end of `write_one` [src/libgit2/pack-objects.c:444-448] -/
def finishOne (E : Env) (objs : List PObj) (i : Nat) (s : WState) : Res (Status × WState) :=
  match writeObject E objs i { s with written := upd s.written i true, recursing := upd s.recursing i false } with
  | .ub => .ub
  | .err e => .err e
  | .ok s => .ok (.written, s)

/-- `po->delta = NULL` if the base was recursive [src/libgit2/pack-objects.c:439-441] -/
def dropBase (i : Nat) (st : Status) (s : WState) : WState :=
  if st = .recursive then { s with ds := upd s.ds i { s.ds i with delta := none } } else s

/-- `write_one` [src/libgit2/pack-objects.c:416-449]; not ending is `ub` -/
def writeOne (E : Env) (objs : List PObj) : Nat → Nat → WState → Res (Status × WState)
  | 0, _, _ => .ub
  | fuel + 1, i, s =>
    if s.recursing i then .ok (.recursive, s)
    else if s.written i then .ok (.skip, s)
    else match (s.ds i).delta with
      | none => finishOne E objs i s
      | some b => match writeOne E objs fuel b { s with recursing := upd s.recursing i true } with
        | .ub => .ub
        | .err e => .err e
        | .ok (st, s) => finishOne E objs i (dropBase i st s)

/-- the loop over the write order [src/libgit2/pack-objects.c:665-674] -/
def writeLoop (E : Env) (objs : List PObj) (fuel : Nat) : List Nat → WState → Res WState
  | [], s => .ok s
  | i :: is, s => match writeOne E objs fuel i s with
    | .ub => .ub
    | .err e => .err e
    | .ok (_, s) => writeLoop E objs fuel is s

/-- the header of a pack [src/libgit2/pack-objects.c:654-658] -/
def packHeader (n : Nat) : Bytes := be32 0x5041434b ++ be32 2 ++ be32 (UInt32.ofNat n)

/-- `write_pack` with the deltas `ds`; `fuel` bounds the loops that follow deltas [src/libgit2/pack-objects.c:633-693] -/
def writePack (E : Env) (objs : List PObj) (tagged : Nat → Bool) (ds : Nat → DState) (fuel : Nat) : Res Bytes :=
  match writeOrder objs tagged (fun i => (ds i).delta) fuel with
  | .ub => .ub
  | .err e => .err e
  | .ok wo => match writeLoop E objs fuel wo (emit (packHeader objs.length) ⟨ds, fun _ => false, fun _ => false, [], []⟩) with
    | .ub => .ub
    | .err e => .err e
    | .ok s => .ok (s.out ++ E.sha s.hashed)

end Verif.PackObjects
