import Verif.HashMap.Model
/-! # Model of `src/libgit2/cache.c` (the object cache)

One cache, the objects it may hold (named by a handle, the address of the C structure) and the global counters. Every function of cache.c
does its work on the cache under `cache->lock`, and reference counts are atomic, so a history is a sequence of calls. The keys of the map
are pointers to the id inside the object that is bound; the model has the id itself as key (`_put` replaces key and value together, so the
pointer always leads into the object that is bound). Reference counts are natural numbers (32 bits in C), `ssize_t` sums are integers. -/
namespace Verif.Cache
open HashMap

/-- `git_cached_obj`: src/libgit2/cache.h:25-31. `freed`: `git_cached_obj_decref` has released the memory; any further use is undefined. -/
structure Obj where
  oid : Bytes
  type : Nat
  flags : Nat
  size : Nat
  refcount : Nat
  freed : Bool

/-- `GIT_CACHE_STORE_ANY`, `_RAW`, `_PARSED`: src/libgit2/cache.h:19-23 -/
def ANY : Nat := 0
/-- [src/libgit2/cache.h:21] -/
def RAW : Nat := 1
/-- [src/libgit2/cache.h:22] -/
def PARSED : Nat := 2

/-- `git_cache` (cache.h:35-39), the objects, and the globals of cache.c:21-34. `current` is `git_cache__current_storage`. -/
structure World where
  objs : Nat → Obj
  map : Map Bytes Nat
  used : Int
  current : Int
  enabled : Bool
  maxStorage : Int
  maxSize : Nat → Nat

/-- `git_cached_obj_incref`: src/libgit2/cache.h:59-63 -/
def incref (w : World) (h : Nat) : Res World :=
  if (w.objs h).freed then .ub
  else .ok { w with objs := upd w.objs h { w.objs h with refcount := (w.objs h).refcount + 1 } }

/-- `git_cached_obj_decref`: src/libgit2/cache.c:239-258; a count that was already zero would wrap around -/
def decref (w : World) (h : Nat) : Res World :=
  if (w.objs h).freed ∨ (w.objs h).refcount = 0 then .ub
  else .ok { w with objs := upd w.objs h { w.objs h with refcount := (w.objs h).refcount - 1, freed := (w.objs h).refcount = 1 } }

/-- `git_cached_obj_decref` of every entry `git_cache_oidmap_iterate` yields: src/libgit2/cache.c:69-70 -/
def decrefAll : List (Bytes × Nat) → World → Res World
  | [], w => .ok w
  | e :: es, w => do
    let w ← decref w e.2
    decrefAll es w

/-- `clear_cache`: src/libgit2/cache.c:60-74 -/
def clearCache (w : World) : Res World :=
  if w.map.size = 0 then .ok w
  else do
    let w ← decrefAll (entries w.map) w
    .ok { w with map := clear w.map, current := w.current - w.used, used := 0 }

/-- `git_cache_oidmap_iterate` from bucket `it`: src/util/hashmap.h:346-359; `none` is `GIT_ITEROVER` -/
def iterate (h : Map Bytes Nat) : Nat → Nat → Res (Option (Bytes × Nat × Nat))
  | 0, _ => .ok none
  | k + 1, it =>
    if it < h.n then
      if h.flag it = .live then
        match h.kv it with
        | none => .ub
        | some p => .ok (some (p.1, p.2, it + 1))
      else iterate h k (it + 1)
    else .ok none

/-- the loop of `cache_evict_entries` and what follows it: src/libgit2/cache.c:114-129. `evicted` is `evicted_memory`, `it` the iterator. -/
def evictLoop (hash : Bytes → Nat) : Nat → Nat → Int → World → Res World
  | 0, _, evicted, w => .ok { w with used := w.used - evicted, current := w.current - evicted }
  | count + 1, it, evicted, w => do
    let e ← iterate w.map (w.map.n - it + 1) it
    match e with
    | none => .ok { w with used := w.used - evicted, current := w.current - evicted }
    | some (key, h, it') =>
      if (w.objs h).freed then .ub
      else
        match remove hash w.map key with
        | .ub => .ub
        | .err _ => .ub
        | .ok m => do
          let w' ← decref { w with map := m } h
          evictLoop hash count it' (evicted + (w.objs h).size) w'

/-- `evict_count`: src/libgit2/cache.c:100-105 -/
def evictCount (size : Nat) : Nat := if size / 2048 < 8 then 8 else size / 2048

/-- `cache_evict_entries`: src/libgit2/cache.c:100-130 -/
def evictEntries (hash : Bytes → Nat) (w : World) : Res World :=
  if evictCount w.map.size > w.map.size then clearCache w
  else evictLoop hash (evictCount w.map.size) 0 0 w

/-- `cache_should_store`: src/libgit2/cache.c:132-136; the table has eight entries -/
def shouldStore (w : World) (type size : Nat) : Res Bool :=
  if 8 ≤ type then .ub else .ok (w.enabled && size < w.maxSize type)

/-- `cache_get`: src/libgit2/cache.c:138-156. `locks`: the read lock could be taken. -/
def cacheGet (hash : Bytes → Nat) (w : World) (oid : Bytes) (flags : Nat) (locks : Bool) : Res (Option Nat × World) :=
  if ¬ w.enabled ∨ ¬ locks then .ok (none, w)
  else
    match HashMap.get hash w.map oid with
    | .ub => .ub
    | .err _ => .ok (none, w)
    | .ok h =>
      if (w.objs h).freed then .ub
      else if flags ≠ 0 ∧ (w.objs h).flags ≠ flags then .ok (none, w)
      else do
        let w ← incref w h
        .ok (some h, w)

/-- the part of `cache_store` for an id that is not in the map: src/libgit2/cache.c:180-186 -/
def insertEntry (hash : Bytes → Nat) (w : World) (h : Nat) : Res (Nat × World) :=
  match put hash w.map (w.objs h).oid h with
  | .ub => .ub
  | .err _ => .ok (h, w)
  | .ok m => do
    let w ← incref { w with map := m } h
    .ok (h, { w with used := w.used + (w.objs h).size, current := w.current + (w.objs h).size })

/-- the part of `cache_store` for an id that is in the map, bound to `stored`: src/libgit2/cache.c:188-206 -/
def replaceEntry (hash : Bytes → Nat) (w : World) (h stored : Nat) : Res (Nat × World) :=
  if (w.objs stored).freed then .ub
  else if (w.objs stored).flags = (w.objs h).flags then do
    let w ← decref w h
    let w ← incref w stored
    .ok (stored, w)
  else if (w.objs stored).flags = RAW ∧ (w.objs h).flags = PARSED then
    match put hash w.map (w.objs h).oid h with
    | .ub => .ub
    | .err _ => do
      let w ← decref w h
      let w ← incref w stored
      .ok (stored, w)
    | .ok m => do
      let w ← decref { w with map := m } stored
      let w ← incref w h
      .ok (h, w)
  else .ok (h, w)

/-- "soften the load on the cache": src/libgit2/cache.c:178-180 -/
def relieve (hash : Bytes → Nat) (w : World) : Res World := if w.current > w.maxStorage then evictEntries hash w else .ok w

/-- `cache_store` with the lock held: src/libgit2/cache.c:176-209 -/
def storeLocked (hash : Bytes → Nat) (w : World) (h : Nat) : Res (Nat × World) := do
  let w ← relieve hash w
  match HashMap.get hash w.map (w.objs h).oid with
  | .ub => .ub
  | .err _ => insertEntry hash w h
  | .ok stored => replaceEntry hash w h stored

/-- `cache_store`: src/libgit2/cache.c:158-210. `locks`: the write lock could be taken. -/
def cacheStore (hash : Bytes → Nat) (w : World) (h : Nat) (locks : Bool) : Res (Nat × World) := do
  let w ← incref w h
  if ¬ w.enabled ∧ w.used > 0 then do
    let w ← if locks then clearCache w else .ok w
    .ok (h, w)
  else do
    let b ← shouldStore w (w.objs h).type (w.objs h).size
    if ¬ b then .ok (h, w)
    else if ¬ locks then .ok (h, w)
    else storeLocked hash w h

/-- `git_cache_store_raw` and `git_cache_store_parsed`: src/libgit2/cache.c:212-222; they set the flags of the object first. -/
def store (hash : Bytes → Nat) (w : World) (kind h : Nat) (locks : Bool) : Res (Nat × World) :=
  if (w.objs h).freed then .ub
  else cacheStore hash { w with objs := upd w.objs h { w.objs h with flags := kind } } h locks

/-- `git_cache_clear`: src/libgit2/cache.c:76-84 -/
def cacheClear (w : World) (locks : Bool) : Res World := if locks then clearCache w else .ok w

/-- a call, as the users of the cache make them. `other`: another cache changes the global storage counter. [src/libgit2/cache.c:76, 212-236 (the entry points)] -/
inductive Op where
  | store (h : Nat) (locks : Bool)
  | get (oid : Bytes) (flags : Nat) (locks : Bool)
  | clear (locks : Bool)
  | release (h : Nat)
  | enable (b : Bool)
  | limits (maxStorage : Int) (maxSize : Nat → Nat)
  | other (delta : Int)

/-- one call: returns the object it hands out, if any. `kind h` says whether the object `h` is a `git_odb_object` (raw) or a `git_object`
(parsed), which decides between the two store functions. [src/libgit2/cache.c:76-89, 212-257] -/
def step (hash : Bytes → Nat) (kind : Nat → Nat) (w : World) : Op → Res (Option Nat × World)
  | .store h locks => do
    let r ← store hash w (kind h) h locks
    .ok (some r.1, r.2)
  | .get oid flags locks => cacheGet hash w oid flags locks
  | .clear locks => do
    let w ← cacheClear w locks
    .ok (none, w)
  | .release h => do
    let w ← decref w h
    .ok (none, w)
  | .enable b => .ok (none, { w with enabled := b })
  | .limits maxStorage maxSize => .ok (none, { w with maxStorage := maxStorage, maxSize := maxSize })
  | .other delta => .ok (none, { w with current := w.current + delta })

end Verif.Cache
