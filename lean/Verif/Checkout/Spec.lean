import Verif.Checkout.Model
/-! # What checkout is asked to do -/
namespace Verif.Checkout.Spec

/-- a strategy that must not lose work: no `FORCE`, nothing untracked or ignored is to be removed -/
structure Safe (data : Data) : Prop where
  force : data.strategy.force = false
  untracked : data.strategy.removeUntracked = false
  ignored : data.strategy.removeIgnored = false

/-- `p` is below the directory `q` -/
def Below (p q : Bytes) : Prop := (q ++ [c!"/"]) <+: p

/-- the deltas between two trees: in order, without trailing slash -/
structure DeltasOK (ds : List Delta) : Prop where
  sorted : ds.Pairwise (fun a b => a.path < b.path)
  noSlash : ∀ d ∈ ds, d.path.getLast? ≠ some c!"/"

/-- the items of a work directory: in order, the directories are those with a trailing slash, the directory of an item is an item, no name
is both a file and a directory, and nothing is in what is an empty directory -/
structure WorkdirOK (wds : List Wd) : Prop where
  sorted : wds.Pairwise (fun a b => a.path < b.path)
  tree : ∀ w ∈ wds, w.mode = modeTree ↔ w.path.getLast? = some c!"/"
  parents : ∀ w ∈ wds, ∀ q, Below w.path q → ∃ t ∈ wds, t.path = q ++ [c!"/"]
  unique : ∀ w ∈ wds, ∀ t ∈ wds, t.path ≠ w.path ++ [c!"/"]
  empty : ∀ t ∈ wds, t.emptyDir = true → ∀ w ∈ wds, t.path <+: w.path → w = t

/-- the index does not vouch for a file wrongly: if its cached file data match (and are not too recent), its id is the content's -/
def Honest (data : Data) (w : Wd) : Prop :=
  ∀ ie, w.index = some ie → ie.newer = false → w.mtime = ie.mtime → w.size = ie.size →
    filemodeChanged w.mode ie.mode data.respectFilemode = false → w.hash = some ie.id

/-- the file's content is neither the baseline's nor the target's -/
def Changed (w : Wd) (d : Delta) : Prop := ∃ c, w.hash = some c ∧ c ≠ d.old.id ∧ c ≠ d.new.id

/-- the file is user data that the delta at its path must not destroy: it is changed, or untracked and not to be overwritten -/
def Protected (data : Data) (w : Wd) (d : Delta) : Prop :=
  match d.status with
  | .added => w.ignored = false ∨ data.strategy.dontOverwriteIgnored = true
  | .deleted | .modified | .typechange => Changed w d
  | .unmodified | .other => True

/-- no delta below a file's path is a deletion (the file took the place of a directory) -/
def NoDeletionBelow (ds : List Delta) (w : Wd) : Prop := ∀ d ∈ ds, Below d.path w.path → d.status ≠ .deleted

/-- the deltas at the path of a directory above the file (where a tree has a file or a link) do not delete or change the type, and the
directory is not an ignored one that may be overwritten -/
def DirectoriesAbove (data : Data) (ds : List Delta) (wds : List Wd) (w : Wd) : Prop :=
  ∀ d ∈ ds, Below w.path d.path → d.status ≠ .deleted ∧ d.status ≠ .typechange ∧
    ∀ t ∈ wds, t.path = d.path ++ [c!"/"] → t.ignored = false ∨ data.strategy.dontOverwriteIgnored = true

/-- the file is as the baseline has it -/
structure Unchanged (data : Data) (w : Wd) (d : Delta) : Prop where
  hash : w.hash = some d.old.id
  size : d.old.size = 0 ∨ w.size = d.old.size
  mode : filemodeChanged d.old.mode w.mode data.respectFilemode = false
  index : ∀ ie, w.index = some ie → ie.newer = false → w.mtime = ie.mtime → w.size = ie.size →
    filemodeChanged w.mode ie.mode data.respectFilemode = false → filemodeChanged d.old.mode ie.mode data.respectFilemode = false

end Verif.Checkout.Spec
