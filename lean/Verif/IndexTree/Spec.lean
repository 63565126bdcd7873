import Verif.IndexTree.Model
import Verif.Index.Props
import Verif.Tree.Spec
import Verif.TreeDiff.Spec
/-! # What it means that a tree is what the index has -/
namespace Verif.IndexTree.Spec

/-- a tree entry as `TreeDiff` has it -/
def conv (e : Tree.Entry) : TreeDiff.Entry := ⟨e.name, e.attr, e.oid⟩

/-- the entries of the tree with an id: the object with this id, parsed -/
def trees (odb : Odb) : TreeDiff.Store := fun id =>
  match lookupTree odb id with
  | .ok es => some (es.map conv)
  | _ => none

/-- The tree with this id is in the object database, and so are all its subdirectories; they are all as git writes them (sorted, with proper names); and it has exactly these
files: `files p m i` says that there is the file `p` with mode `m` and id `i`. -/
def Represents (odb : Odb) (id : Bytes) (files : Bytes → Nat → Bytes → Prop) : Prop :=
  ∃ es, trees odb id = some es ∧ TreeDiff.Spec.Good (trees odb) es ∧ ∀ p m i, TreeDiff.Spec.Has (trees odb) (some es) p m i ↔ files p m i

/-- what the path of a file in a directory begins with; the root is the empty path -/
def pre (d : Bytes) : Bytes := if d = [] then [] else d ++ b!"/"

/-- the files of an index in a directory, by their path in it -/
def filesIn (idx : Index.St) (d : Bytes) : Bytes → Nat → Bytes → Prop := fun p m i => ∃ e ∈ idx.entries, e.stage = 0 ∧ e.path = pre d ++ p ∧ e.mode = m ∧ e.id = i

/-- a path whose components are not empty; no NUL -/
def GoodPath (p : Bytes) : Prop := (0 : UInt8) ∉ p ∧ ∀ a q, p = a ++ q → (a = [] ∨ a.getLast? = some c!"/") → q ≠ [] ∧ q.head? ≠ some c!"/"

/-- no file of the index is a directory of another one -/
def NoClash (idx : Index.St) : Prop := ∀ x ∈ idx.entries, ∀ y ∈ idx.entries, ¬ Index.Spec.Below x.path y.path

/-- the index is fit to be written: proper paths that are not too long, ids of 20 bytes, modes of files (not of a directory), no file that is a directory of another one, and
not a billion entries -/
structure Fit (idx : Index.St) : Prop where
  path : ∀ e ∈ idx.entries, GoodPath e.path ∧ e.path.length ≤ 65535
  id : ∀ e ∈ idx.entries, e.id.length = 20
  mode : ∀ e ∈ idx.entries, e.mode ≠ 0o040000
  noClash : NoClash idx
  size : idx.entries.length < 2 ^ 30

/-- the objects are found by the id that their bytes have; ids have 20 bytes, no object has the null id -/
def Hashed (env : Env) (odb : Odb) : Prop := (∀ o ∈ odb, o.1 = env.idOf o.2) ∧ ∀ b, (env.idOf b).length = 20 ∧ ∃ c ∈ env.idOf b, c ≠ 0

/-- no two different objects that were written have the same id -/
def Collisionless (odb : Odb) : Prop := ∀ x ∈ odb, ∀ y ∈ odb, x.1 = y.1 → x.2 = y.2

/-- every node of the cache that claims to be valid has the id of a tree with the files that the index has in that directory (the root is not found by a path) -/
def CacheRight (odb : Odb) (idx : Index.St) (cache : Option Cache) : Prop :=
  (∀ c, cache = some c → 0 ≤ c.count → Represents odb c.oid (filesIn idx [])) ∧
  (∀ d c, d ≠ [] → cacheGet cache d = some c → 0 ≤ c.count → Represents odb c.oid (filesIn idx d)) ∧ cacheGet cache [] = none

/-- a component of a path: it is between slashes, or the begin or the end -/
def Component (w p : Bytes) : Prop := ∃ a b, p = a ++ w ++ b ∧ (a = [] ∨ a.getLast? = some c!"/") ∧ (b = [] ∨ b.head? = some c!"/") ∧ c!"/" ∉ w

/-- an id is not the null id -/
def NotNull (id : Bytes) : Prop := ∃ c ∈ id, c ≠ 0

/-- what `git_index_write_tree` asks for: modes that git knows, names that are allowed in trees, ids that are not null and, if the objects are checked, of blobs in the
repository (those of submodules are not checked) -/
structure Acceptable (env : Env) (idx : Index.St) : Prop where
  mode : ∀ e ∈ idx.entries, Index.Spec.StoredMode e.mode
  name : ∀ e ∈ idx.entries, ∀ w, Component w e.path → env.nameValid w = true
  id : ∀ e ∈ idx.entries, NotNull e.id
  obj : ∀ e ∈ idx.entries, env.strict = true → e.mode = 0o160000 ∨ env.isBlob e.id = true

/-- A tree as this library would write it: the canonical bytes, no odd modes of directories, no empty subdirectories. -/
inductive Tidy (odb : Odb) : Bytes → Prop where
  | mk {id bytes : Bytes} {c : Tree.Spec.Contents} : readObj odb id = some bytes → Tree.Spec.Canonical c bytes →
      (∀ n m i, c n = some (m, i) → m < 65536 ∧ Tree.Spec.Name n ∧ i.length = 20) → (∀ n m i, c n = some (m, i) → m = 0o040000 → readObj odb i ≠ some []) → (∀ n m i, c n = some (m, i) → m / 4096 = 4 → m = 0o040000) →
      (∀ n m i, c n = some (m, i) → m = 0o040000 → Tidy odb i) → Tidy odb id

/-! ## Histories -/

/-- the paths that a call invalidates because it adds them: `git_index_add`, if it succeeds -/
def added (ienv : Index.Env) (idx : Index.St) : Index.Op → List Bytes
  | .add e => match Index.add ienv idx e with
    | .ok _ => [e.path]
    | _ => []
  | _ => []

/-- the cache after a call: `git_index_clear` forgets it -/
def cacheAfter (ienv : Index.Env) (s : St) (idx' : Index.St) : Index.Op → Option Cache
  | .clear => none
  | op => touch s.cache s.idx idx' (added ienv s.idx op)

/-- one of the calls of C22 and C24 that change the index; `none`: undefined behaviour -/
def indexStep (ienv : Index.Env) (s : St) (op : Index.Op) : Option St :=
  match Index.step ienv s.idx op with
  | some idx' => some ⟨idx', cacheAfter ienv s idx' op, s.odb⟩
  | none => none

/-- The states that programs can get to: from an empty index, by changing the index, writing it as a tree (whatever comes of it; it must be fit, and there must be no
collision of ids), reading trees that are as git writes them (whatever comes of it; with `tidy`, only trees as this library would write
them), while others write objects. -/
inductive Reach (tidy : Bool) (env : Env) (ienv : Index.Env) : St → Prop where
  | start {odb : Odb} : Hashed env odb → Reach tidy env ienv ⟨Index.init, none, odb⟩
  | index {s s' : St} {op : Index.Op} : Reach tidy env ienv s → indexStep ienv s op = some s' → Reach tidy env ienv s'
  | write {s s' : St} {fuel : Nat} {r : Res Bytes} : Reach tidy env ienv s → Fit s.idx → writeIndex env fuel s = (s', r) → Collisionless s'.odb → Reach tidy env ienv s'
  | read {s s' : St} {fuel : Nat} {id : Bytes} {es : List Tree.Entry} {r : Res Unit} : Reach tidy env ienv s → lookupTree s.odb id = .ok es →
      TreeDiff.Spec.Good (trees s.odb) (es.map conv) → (tidy = true → Tidy s.odb id) → readTree env fuel s id es = (s', r) → Reach tidy env ienv s'
  | others {s : St} {ext : Odb} : Reach tidy env ienv s → (∀ o ∈ ext, o.1 = env.idOf o.2) → Reach tidy env ienv ⟨s.idx, s.cache, s.odb ++ ext⟩

end Verif.IndexTree.Spec
