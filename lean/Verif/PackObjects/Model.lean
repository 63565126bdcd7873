import Verif.Delta.Model
import Verif.Pack.Model
import Verif.Sort.Model
import Verif.BE
/-! # Model of `src/libgit2/pack-objects.c`, first part: `git_packbuilder_insert` and the search for deltas

The object database is a function that does not change while a pack is built. zlib is a function `deflate` (what `git_zstream_deflatebuf` and the loop over `git_zstream_get_output` make of
a buffer). Objects are named by their place in `pb->object_list`. Out of memory, the progress callback and the locks are not modelled. -/
namespace Verif.PackObjects

/-- `GIT_PACK_WINDOW` [src/libgit2/pack-objects.h:23] -/
def PACK_WINDOW : Nat := 10
/-- `GIT_PACK_DEPTH` [src/libgit2/pack-objects.h:24] -/
def PACK_DEPTH : Nat := 50

/-- the part of `git_pobject` that `git_packbuilder_insert` fills in [src/libgit2/pack-objects.h:29-37] -/
structure PObj where
  id : Bytes
  type : Nat
  size : Nat
  hash : Nat
  deriving DecidableEq, Repr, Inhabited

/-- the part of `git_pobject` about its delta: `delta`, `delta_data`, `delta_size`, `z_delta_size` [src/libgit2/pack-objects.h:39-47] -/
structure DState where
  delta : Option Nat
  data : Option Bytes
  dsize : Nat
  zsize : Nat
  deriving DecidableEq, Repr

/-- the `memset` of `git_packbuilder_insert` [src/libgit2/pack-objects.c:241-242] -/
def DState.zero : DState := ⟨none, none, 0, 0⟩

/-- what a pack builder sees outside of itself: the object database (type and contents of each object), zlib, the hash, and the configuration
[src/libgit2/pack-objects.h:67-106] -/
structure Env where
  odb : Bytes → Option (Nat × Bytes)
  deflate : Bytes → Bytes
  sha : Bytes → Bytes
  bigFile : Nat
  threads : Nat

/-! ## Inserting -/

/-- the loop of `name_hash` over the characters of a name: unsigned 32-bit arithmetic; `char` is sign-extended [src/libgit2/pack-objects.c:82-86] -/
def nameHashLoop (hash : Nat) : Bytes → Nat
  | [] => hash
  | c :: cs =>
    if c = 0 then hash
    else if c = 32 ∨ (9 ≤ c.toNat ∧ c.toNat ≤ 13) then nameHashLoop hash cs
    else nameHashLoop ((hash >>> 2 + (c.toNat <<< 24) % 2 ^ 32) % 2 ^ 32) cs

/-- `name_hash` [src/libgit2/pack-objects.c:70-88] -/
def nameHash : Option Bytes → Nat
  | none => 0
  | some name => nameHashLoop 0 name

/-- `object_list` and `nr_alloc` of `git_packbuilder` [src/libgit2/pack-objects.h:81-83] -/
structure Builder where
  objs : List PObj
  alloc : Nat
  deriving DecidableEq, Repr

/-- `git_packbuilder_new` [src/libgit2/pack-objects.c:135-186] -/
def Builder.new : Builder := ⟨[], 0⟩

/-- the new `nr_alloc` [src/libgit2/pack-objects.c:222-224] -/
def grown (alloc : Nat) : Nat := (alloc + 1024) / 2 * 3

/-- the part of `git_packbuilder_insert` after growing [src/libgit2/pack-objects.c:241-250] -/
def insertRead (E : Env) (id : Bytes) (name : Option Bytes) (b : Builder) : Builder × Int :=
  match E.odb id with
  | none => (b, -3)
  | some (t, d) => ({ b with objs := b.objs ++ [⟨id, t, d.length, nameHash name⟩] }, 0)

/-- `git_packbuilder_insert` [src/libgit2/pack-objects.c:206-274]. The hash map `object_ix` holds the objects of `object_list`. -/
def insert (E : Env) (id : Bytes) (name : Option Bytes) (b : Builder) : Builder × Int :=
  if b.objs.any (fun o => o.id == id) then (b, 0)
  else if b.alloc ≤ b.objs.length then
    if 2 ^ 32 ≤ grown b.alloc then (b, -1)
    else insertRead E id name { b with alloc := grown b.alloc }
  else insertRead E id name b

/-- object number `i` [src/libgit2/pack-objects.h:83] -/
def objAt (objs : List PObj) (i : Nat) : PObj := objs.getD i default

/-! ## Trying one delta -/

/-- what `try_delta` did: the types differ (`*ret = -1`), nothing (`*ret = 0`), or a delta was taken (`*ret = 1`) [src/libgit2/pack-objects.c:753-895] -/
inductive Try where
  | mismatch
  | skip
  | took (delta : Bytes)
  deriving DecidableEq, Repr

/-- `max_size` of `try_delta`, in `uint64_t` arithmetic; dividing by zero is undefined [src/libgit2/pack-objects.c:780-791] -/
def maxSize (size : Nat) (t : DState) (tdepth sdepth maxDepth : Nat) : Res Nat :=
  let m := if t.delta.isSome then t.dsize else (2 ^ 64 + size / 2 - 20) % 2 ^ 64
  let r := if t.delta.isSome then tdepth else 1
  let q := (2 ^ 64 + maxDepth - r + 1) % 2 ^ 64
  if q = 0 then .ub else .ok (m * (maxDepth - sdepth) % 2 ^ 64 / q)

/-- reading an object whose size must be the one that is known [src/libgit2/pack-objects.c:802-847] -/
def load (E : Env) (o : PObj) : Res Bytes :=
  match E.odb o.id with
  | none => .err (-1)
  | some (_, d) => if d.length = o.size then .ok d else .err (-1)

/-- whether the delta found is kept [src/libgit2/pack-objects.c:857-866] -/
def keeps (t : DState) (tdepth sdepth len : Nat) : Bool :=
  !(t.delta.isSome && decide (len = t.dsize) && decide (tdepth ≤ sdepth + 1))

/-- the part of `try_delta` from loading on [src/libgit2/pack-objects.c:801-866] -/
def tryCreate (E : Env) (trg src : PObj) (t : DState) (tdepth sdepth mx : Nat) : Res Try :=
  match load E trg with
  | .err e => .err e
  | .ub => .ub
  | .ok td => match load E src with
    | .err e => .err e
    | .ub => .ub
    | .ok sd => match Delta.create sd td mx with
      | .ub => .ub
      | .err _ => .ok .skip
      | .ok none => .ok .skip
      | .ok (some d) => if keeps t tdepth sdepth d.length then .ok (.took d) else .ok .skip

/-- `try_delta` [src/libgit2/pack-objects.c:753-895]. The cached `data` and `index` of a window entry are what reading again gives; the cache size only decides whether the caller keeps the
bytes of the delta. -/
def tryDelta (E : Env) (trg src : PObj) (t : DState) (tdepth sdepth maxDepth : Nat) : Res Try :=
  if trg.type ≠ src.type then .ok .mismatch
  else if maxDepth ≤ sdepth then .ok .skip
  else match maxSize trg.size t tdepth sdepth maxDepth with
    | .err e => .err e
    | .ub => .ub
    | .ok mx =>
      if mx = 0 then .ok .skip
      else if mx ≤ trg.size - src.size then .ok .skip
      else if trg.size < src.size / 32 then .ok .skip
      else tryCreate E trg src t tdepth sdepth mx

/-! ## The window -/

/-- `struct unpacked` without its caches [src/libgit2/pack-objects.c:27-32] -/
structure Slot where
  obj : Nat
  depth : Nat
  deriving DecidableEq, Repr

/-- the `array`, `idx` and `count` of `find_deltas`; an entry whose `object` is NULL is `none` [src/libgit2/pack-objects.c:965-966] -/
structure Win where
  slots : List (Option Slot)
  idx : Nat
  count : Nat
  deriving DecidableEq, Repr

/-- the window at the start of `find_deltas` [src/libgit2/pack-objects.c:971-972] -/
def Win.fresh (window : Nat) : Win := ⟨List.replicate window none, 0, 0⟩

/-- the loop that frees the oldest entries: `k` of them, as many as the memory limit asks for [src/libgit2/pack-objects.c:997-1003] -/
def evict (window idx : Nat) : Nat → Nat → List (Option Slot) → Nat × List (Option Slot)
  | 0, count, slots => (count, slots)
  | k + 1, count, slots =>
    if 1 < count then evict window idx k (count - 1) (slots.set ((idx + window - count) % window) none)
    else (count, slots)

/-- the object being deltified: its delta so far, its depth and `best_base` [src/libgit2/pack-objects.c:975-977] -/
structure Cur where
  t : DState
  depth : Nat
  best : Option Nat
  deriving DecidableEq, Repr

/-- `other_idx` [src/libgit2/pack-objects.c:1024-1028] -/
def otherIdx (window idx j : Nat) : Nat := if window ≤ idx + j then idx + j - window else idx + j

/-- recording a delta: `cache` tells whether `delta_cacheable` lets its bytes be kept [src/libgit2/pack-objects.c:868-892] -/
def took (c : Cur) (src : Slot) (at' : Nat) (delta : Bytes) (cache : Bool) : Cur :=
  ⟨⟨some src.obj, if cache then some delta else none, delta.length, c.t.zsize⟩, src.depth + 1, some at'⟩

/-- the loop over the window: `j` is what is left after `--j` [src/libgit2/pack-objects.c:1021-1042]. `cache j` is the answer of `delta_cacheable`, which depends on what other threads have
cached. -/
def tryLoop (E : Env) (objs : List PObj) (window idx po maxDepth : Nat) (slots : List (Option Slot)) (cache : Nat → Bool) : Nat → Cur → Res Cur
  | 0, c => .ok c
  | j + 1, c =>
    match slots[otherIdx window idx (j + 1)]? with
    | none => .ub
    | some none => .ok c
    | some (some m) =>
      match tryDelta E (objAt objs po) (objAt objs m.obj) c.t c.depth m.depth maxDepth with
      | .ub => .ub
      | .err e => .err e
      | .ok .mismatch => .ok c
      | .ok .skip => tryLoop E objs window idx po maxDepth slots cache j c
      | .ok (.took d) => tryLoop E objs window idx po maxDepth slots cache j (took c m (otherIdx window idx (j + 1)) d (cache (j + 1)))

/-- compressing a delta that is kept: `delta_size` bytes of `delta_data` are read [src/libgit2/pack-objects.c:1058-1075] -/
def compress (E : Env) (t : DState) : Res DState :=
  match t.data with
  | none => .ok t
  | some d => match slice d 0 t.dsize with
    | .ub => .ub
    | .err e => .err e
    | .ok b => .ok { t with data := some (E.deflate b), zsize := (E.deflate b).length }

/-- the rotation that moves the best base up: `while (dist--)` and the final store [src/libgit2/pack-objects.c:1092-1098] -/
def rotateLoop (window : Nat) (swap : Option Slot) : Nat → Nat → List (Option Slot) → Res (List (Option Slot))
  | 0, dst, slots => if dst < slots.length then .ok (slots.set dst swap) else .ub
  | dist + 1, dst, slots =>
    match slots[(dst + 1) % window]? with
    | none => .ub
    | some s => if dst < slots.length then rotateLoop window swap dist ((dst + 1) % window) (slots.set dst s) else .ub

/-- moving the best base up in the window; `best_base` is still `SIZE_MAX` if no delta was taken in this round [src/libgit2/pack-objects.c:1089-1099] -/
def rotate (window idx : Nat) (best : Option Nat) (slots : List (Option Slot)) : Res (List (Option Slot)) :=
  match best with
  | none => .ub
  | some b => match slots[b]? with
    | none => .ub
    | some swap => rotateLoop window swap ((window + idx - b) % window) b slots

/-- `idx++` and so on at `next:` [src/libgit2/pack-objects.c:1102-1106] -/
def advance (window idx count : Nat) (slots : List (Option Slot)) : Win :=
  ⟨slots, if window ≤ idx + 1 then 0 else idx + 1, if count + 1 < window then count + 1 else count⟩

/-- the end of a round of `find_deltas`: where the object stays in the window [src/libgit2/pack-objects.c:1077-1106] -/
def place (window maxDepth po : Nat) (w : Win) (c : Cur) : Res Win :=
  let slots := w.slots.set w.idx (some ⟨po, c.depth⟩)
  if c.t.delta.isSome ∧ maxDepth ≤ c.depth then .ok { w with slots := slots }
  else if c.t.delta.isSome then
    match rotate window w.idx c.best slots with
    | .ub => .ub
    | .err e => .err e
    | .ok slots => .ok (advance window w.idx w.count slots)
  else .ok (advance window w.idx w.count slots)

/-- the window in which the round for `po` begins: its slot is freed and taken, old entries are freed [src/libgit2/pack-objects.c:993-1003] -/
def opened (window po evicted : Nat) (w : Win) : Win :=
  let e := evict window w.idx evicted w.count (w.slots.set w.idx (some ⟨po, 0⟩))
  ⟨e.2, w.idx, e.1⟩

/-- a round of `find_deltas` for the object `po` up to the loop over the window [src/libgit2/pack-objects.c:991-1042]. `delta_child` is NULL in every object before `compute_write_order`, so `max_depth`
is `depth`. -/
def search (E : Env) (objs : List PObj) (window depth po evicted : Nat) (cache : Nat → Bool) (t : DState) (w : Win) : Res Cur :=
  if window = 0 ∨ w.slots.length ≤ w.idx then .ub
  else tryLoop E objs window w.idx po depth (opened window po evicted w).slots cache (window - 1) ⟨t, 0, none⟩

/-- a round of `find_deltas` [src/libgit2/pack-objects.c:974-1107] -/
def findStep (E : Env) (objs : List PObj) (window depth po evicted : Nat) (cache : Nat → Bool) (t : DState) (w : Win) : Res (DState × Win) :=
  match search E objs window depth po evicted cache t w with
  | .ub => .ub
  | .err e => .err e
  | .ok c => match compress E c.t with
    | .ub => .ub
    | .err e => .err e
    | .ok t' => match place window depth po (opened window po evicted w) { c with t := t' } with
      | .ub => .ub
      | .err e => .err e
      | .ok w' => .ok (t', w')

/-! ## The threads -/

/-- assignment to one object [src/libgit2/pack-objects.c:888-889] -/
def upd {α : Type} (f : Nat → α) (i : Nat) (v : α) : Nat → α := fun j => if j = i then v else f j

/-- what a thread has left of its list, and its window [src/libgit2/pack-objects.c:1119-1140] -/
structure Job where
  list : List Nat
  win : Win
  deriving DecidableEq, Repr

/-- all threads, and the deltas of all objects [src/libgit2/pack-objects.c:1185-1330] -/
structure Work where
  jobs : List Job
  ds : Nat → DState

/-- `list[k]->hash` [src/libgit2/pack-objects.c:1219-1220] -/
def hashAt (objs : List PObj) (l : List Nat) (k : Nat) : Nat := match l[k]? with
  | none => 0
  | some i => (objAt objs i).hash

/-- extending a segment to the end of a run of equal name hashes [src/libgit2/pack-objects.c:1218-1221] -/
def extend (objs : List PObj) (l : List Nat) : Nat → Nat → Nat
  | 0, sub => sub
  | fuel + 1, sub =>
    if sub ≠ 0 ∧ sub < l.length ∧ hashAt objs l sub ≠ 0 ∧ hashAt objs l sub = hashAt objs l (sub - 1) then extend objs l fuel (sub + 1)
    else sub

/-- `sub_size` for the next thread when `k + 1` threads have no list yet [src/libgit2/pack-objects.c:1204-1221] -/
def segment (objs : List PObj) (window k : Nat) (l : List Nat) : Nat :=
  let sub := l.length / (k + 1)
  let sub := if sub < 2 * window ∧ 0 < k then 0 else sub
  extend objs l l.length sub

/-- partitioning the list among the threads [src/libgit2/pack-objects.c:1202-1229] -/
def partition (objs : List PObj) (window : Nat) : Nat → List Nat → List (List Nat)
  | 0, _ => []
  | k + 1, l => l.take (segment objs window k l) :: partition objs window k (l.drop (segment objs window k l))

/-- skipping to the end of a run of equal name hashes when stealing [src/libgit2/pack-objects.c:1281-1286] -/
def stealLoop (objs : List PObj) (l : List Nat) : Nat → Nat
  | 0 => 0
  | sub + 1 =>
    if hashAt objs l (l.length - (sub + 1)) ≠ 0 ∧ hashAt objs l (l.length - (sub + 1)) = hashAt objs l (l.length - (sub + 1) - 1) then stealLoop objs l sub
    else sub + 1

/-- how many objects are stolen from a victim whose list is `l` [src/libgit2/pack-objects.c:1279-1297] -/
def stealCount (objs : List PObj) (l : List Nat) : Nat :=
  if stealLoop objs l (l.length / 2) = 0 then l.length / 2 else stealLoop objs l (l.length / 2)

/-- `!victim || victim->remaining < p[i].remaining` [src/libgit2/pack-objects.c:1275] -/
def bigger (v : Option (Nat × List Nat)) (l : List Nat) : Bool := match v with
  | none => true
  | some x => decide (x.2.length < l.length)

/-- the thread with the largest list, if that is long enough [src/libgit2/pack-objects.c:1273-1276] -/
def victim (window : Nat) : List Job → Nat → Option (Nat × List Nat) → Option (Nat × List Nat)
  | [], _, v => v
  | j :: js, i, v =>
    victim window js (i + 1) (if 2 * window < j.list.length ∧ bigger v j.list then some (i, j.list) else v)

/-- What can happen while the threads work [src/libgit2/pack-objects.c:1142-1330]. A round of `find_deltas` writes only to its own object and reads only the fields of others that `insert` set, so
rounds of different threads commute and each is one step, at the moment the object is taken off the list.
* `take`: a thread deltifies the next object of its list;
* `steal`: an idle thread gets the end of the list of another, and starts with a fresh window;
* `fail`: a thread gives up (`stopped`) — the rest of its list is never looked at;
* `failDeflate`: a thread gives up after the search. -/
inductive Step (E : Env) (objs : List PObj) (window depth : Nat) : Work → Work → Prop
  | take {s : Work} {i : Nat} {po : Nat} {rest : List Nat} {w w' : Win} {t : DState} (evicted : Nat) (cache : Nat → Bool) :
      s.jobs[i]? = some ⟨po :: rest, w⟩ → findStep E objs window depth po evicted cache (s.ds po) w = .ok (t, w') →
      Step E objs window depth s ⟨s.jobs.set i ⟨rest, w'⟩, upd s.ds po t⟩
  | steal {s : Work} {i v : Nat} {w : Win} {j : Job} {l : List Nat} :
      s.jobs[i]? = some ⟨[], w⟩ → victim window s.jobs 0 none = some (v, l) → s.jobs[v]? = some j →
      Step E objs window depth s
        ⟨(s.jobs.set v ⟨j.list.take (j.list.length - stealCount objs j.list), j.win⟩).set i
          ⟨j.list.drop (j.list.length - stealCount objs j.list), Win.fresh window⟩, s.ds⟩
  | fail {s : Work} {i : Nat} {j : Job} :
      s.jobs[i]? = some j → Step E objs window depth s ⟨s.jobs.set i ⟨[], j.win⟩, s.ds⟩
  | failDeflate {s : Work} {i : Nat} {po : Nat} {rest : List Nat} {w : Win} {c : Cur} (evicted : Nat) (cache : Nat → Bool) :
      s.jobs[i]? = some ⟨po :: rest, w⟩ → search E objs window depth po evicted cache (s.ds po) w = .ok c →
      Step E objs window depth s ⟨s.jobs.set i ⟨[], w⟩, upd s.ds po c.t⟩

/-- any number of steps [src/libgit2/pack-objects.c:1246-1326] -/
inductive Steps (E : Env) (objs : List PObj) (window depth : Nat) : Work → Work → Prop
  | refl (s : Work) : Steps E objs window depth s s
  | tail {a b c : Work} : Steps E objs window depth a b → Step E objs window depth b c → Steps E objs window depth a c

/-- one comparison of `type_size_sort`: the larger first [src/libgit2/pack-objects.c:706-725] -/
def descending (a b : Nat) : Int := if b < a then -1 else if a < b then 1 else 0

/-- `type_size_sort` [src/libgit2/pack-objects.c:701-727] -/
def typeSizeSort (objs : List PObj) (a b : Nat) : Int :=
  if descending (objAt objs a).type (objAt objs b).type ≠ 0 then descending (objAt objs a).type (objAt objs b).type
  else if descending (objAt objs a).hash (objAt objs b).hash ≠ 0 then descending (objAt objs a).hash (objAt objs b).hash
  else if descending (objAt objs a).size (objAt objs b).size ≠ 0 then descending (objAt objs a).size (objAt objs b).size
  else if a < b then -1 else if b < a then 1 else 0

/-- the objects to deltify [src/libgit2/pack-objects.c:1354-1362] -/
def candidates (E : Env) (objs : List PObj) : List Nat :=
  (List.range objs.length).filter fun i => !(decide ((objAt objs i).size < 50) || decide (E.bigFile < (objAt objs i).size))

/-- the threads before they start: with at most one thread all is done by the caller [src/libgit2/pack-objects.c:1192-1229] -/
def startWork (E : Env) (objs : List PObj) (window : Nat) (l : List Nat) : Work :=
  ⟨(partition objs window (max 1 E.threads) l).map fun seg => ⟨seg, Win.fresh window⟩, fun _ => DState.zero⟩

/-- `git_packbuilder__prepare`: the deltas it can end with [src/libgit2/pack-objects.c:1336-1382] -/
inductive Prepared (E : Env) (objs : List PObj) : (Nat → DState) → Prop
  | none : (candidates E objs).length ≤ 1 → Prepared E objs fun _ => DState.zero
  | deltas {l : List Nat} {s : Work} : 1 < (candidates E objs).length → Sort.tsort (typeSizeSort objs) (candidates E objs) = .ok l →
      Steps E objs (PACK_WINDOW + 1) PACK_DEPTH (startWork E objs (PACK_WINDOW + 1) l) s → (∀ j ∈ s.jobs, j.list = []) →
      Prepared E objs s.ds

end Verif.PackObjects
