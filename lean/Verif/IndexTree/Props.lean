import Verif.IndexTree.Lemmas10
/-! # Properties of `git_index_write_tree` and `git_index_read_tree`: C58, C59 -/
namespace Verif.IndexTree
open Spec
open TreeDiff.Spec (Good Has)

variable {env : Env} {ienv : Index.Env} {tidy : Bool}

/-! ## C58: writing the index as a tree -/

/-- In every history: if `git_index_write_tree` gives an id, then the object database has the tree with this id and all its subdirectories, they are as git writes them, and the
tree has exactly the files of the index, with their modes and ids (whatever is in the tree cache). The index does not change, and no object is lost. -/
theorem C58_write_tree {s s' : St} {fuel : Nat} {id : Bytes} (h : Reach tidy env ienv s) (hf : Fit s.idx) (hw : writeIndex env fuel s = (s', .ok id)) (hcl : Collisionless s'.odb) :
    Represents s'.odb id (filesIn s.idx []) ∧ (∀ e ∈ s.idx.entries, e.stage = 0) ∧ s'.idx = s.idx ∧ ∀ i b, readObj s.odb i = some b → readObj s'.odb i = some b := by
  obtain ⟨h1, h2, h3, -⟩ := reach_inv h
  obtain ⟨k1, ⟨ext, hext, -⟩, -, -, k5⟩ := writeIndex_right h1 h2 h3 hf hw hcl
  refine ⟨(k5 id rfl).files, ?_, k1, ?_⟩
  · apply stages_zero
    cases hc : Index.hasConflicts s.idx with
    | false => rfl
    | true => unfold writeIndex at hw; rw [if_pos hc] at hw; cases hw
  · intro i b hr; rw [hext]; exact readObj_append ext hr

/-- An index with conflicts is not written: the error is `GIT_EUNMERGED`, and nothing changes. -/
theorem C58_unmerged (s : St) (fuel : Nat) (h : ∃ e ∈ s.idx.entries, e.stage ≠ 0) : writeIndex env fuel s = (s, .err EUNMERGED) := by
  obtain ⟨e, he, h0⟩ := h
  unfold writeIndex
  rw [if_pos]
  unfold Index.hasConflicts
  rw [List.any_eq_true]
  exact ⟨e, he, by simp; omega⟩

/-- If there are no conflicts, and modes, names and ids are acceptable, it succeeds, unless there is not enough stack or two objects have the same id. -/
theorem C58_succeeds {s : St} (h : Reach tidy env ienv s) (hf : Fit s.idx) (ha : Acceptable env s.idx) (hs : ∀ e ∈ s.idx.entries, e.stage = 0) :
    ∃ N, ∀ fuel, N ≤ fuel → Collisionless (writeIndex env fuel s).1.odb → ∃ id, (writeIndex env fuel s).2 = .ok id := by
  obtain ⟨h1, h2, h3, -⟩ := reach_inv h
  refine writeIndex_total h1 h2 h3 hf ha ?_
  unfold Index.hasConflicts
  rw [List.any_eq_false]
  intro e he
  simp [hs e he]

/-- In every history, what the tree cache says of a directory is true: a node that is valid has the id of a tree with exactly the files that the index has in that directory. -/
theorem C58_cache {s : St} (h : Reach tidy env ienv s) : CacheRight s.odb s.idx s.cache := (reach_inv h).2.2.1

/-- The id depends only on the files: two indexes with the same files, whatever their histories and tree caches, give the same id. (If they read trees, then only trees as this
library would write them: other trees with the same files have other ids.) -/
theorem C58_same_id {ienv1 ienv2 : Index.Env} {s1 s2 s1' s2' : St} {f1 f2 : Nat} {id1 id2 : Bytes} (r1 : Reach true env ienv1 s1) (r2 : Reach true env ienv2 s2)
    (hf1 : Fit s1.idx) (hf2 : Fit s2.idx) (hw1 : writeIndex env f1 s1 = (s1', .ok id1)) (hw2 : writeIndex env f2 s2 = (s2', .ok id2))
    (hc1 : Collisionless s1'.odb) (hc2 : Collisionless s2'.odb) (hsame : ∀ p m i, filesIn s1.idx [] p m i ↔ filesIn s2.idx [] p m i) : id1 = id2 := by
  obtain ⟨a1, a2, a3, a4⟩ := reach_inv r1
  obtain ⟨b1, b2, b3, b4⟩ := reach_inv r2
  obtain ⟨-, g1, -, -, k1⟩ := writeIndex_right a1 a2 a3 hf1 hw1 hc1
  obtain ⟨-, g2, -, -, k2⟩ := writeIndex_right b1 b2 b3 hf2 hw2 hc2
  have w1 := k1 id1 rfl
  have w2 := k2 id2 rfl
  exact tidy_unique (hashed_grows a2 g1) (hashed_grows b2 g2) (w1.tidy (a4 rfl)) (w2.tidy (b4 rfl)) (represents_congr w1.files hsame) w2.files

/-- The id tells the files: two indexes that give the same id have the same files, unless two objects have the same id. -/
theorem C58_same_files {ienv1 ienv2 : Index.Env} {t1 t2 : Bool} {s1 s2 s1' s2' : St} {f1 f2 : Nat} {id : Bytes} (r1 : Reach t1 env ienv1 s1) (r2 : Reach t2 env ienv2 s2)
    (hf1 : Fit s1.idx) (hf2 : Fit s2.idx) (hw1 : writeIndex env f1 s1 = (s1', .ok id)) (hw2 : writeIndex env f2 s2 = (s2', .ok id))
    (hcl : Collisionless (s1'.odb ++ s2'.odb)) : ∀ p m i, filesIn s1.idx [] p m i ↔ filesIn s2.idx [] p m i := by
  have hc2 : Collisionless s2'.odb := fun x hx y hy => hcl x (by simp [hx]) y (by simp [hy])
  obtain ⟨w1, -⟩ := C58_write_tree r1 hf1 hw1 (IndexTree.Collisionless.left hcl)
  obtain ⟨w2, -⟩ := C58_write_tree r2 hf2 hw2 hc2
  have hx : Extends (trees s2'.odb) (trees (s1'.odb ++ s2'.odb)) := by
    intro i es h
    unfold trees lookupTree at h ⊢
    cases hr : readObj s2'.odb i with
    | none => rw [hr] at h; cases h
    | some b =>
      rw [hr] at h
      rw [readObj_of_mem (b := b) hcl (by simp [readObj_mem hr])]
      exact h
  obtain ⟨es, e1, -, e3⟩ := represents_append s2'.odb w1
  obtain ⟨es', e1', -, e3'⟩ := represents_extends hx w2
  rw [e1] at e1'; cases e1'
  intro p m i
  rw [← e3, e3']

/-! ## C59: reading a tree into the index -/

/-- In every history: after a successful `git_index_read_tree` the index has exactly the files of the tree, all of them without a conflict; entries that were there with the
same mode and id stay what they were (with what is known of the file in the working directory); paths that are not allowed are not taken. The object database does not change. -/
theorem C59_read_tree {s s' : St} {fuel : Nat} {id : Bytes} {es : List Tree.Entry} (h : Reach tidy env ienv s) (hl : lookupTree s.odb id = .ok es)
    (hg : Good (trees s.odb) (es.map conv)) (hr : readTree env fuel s id es = (s', .ok ())) :
    (∀ p m i, filesIn s'.idx [] p m i ↔ Has (trees s.odb) (some (es.map conv)) p m i) ∧ (∀ x ∈ s'.idx.entries, x.stage = 0 ∧ env.pathValid x.path = true) ∧
    (∀ o ∈ s.idx.entries, o.stage = 0 → Has (trees s.odb) (some (es.map conv)) o.path o.mode o.id → o ∈ s'.idx.entries) ∧
    s'.idx.entries.Pairwise (fun a b => a.path < b.path) ∧ (∀ p k e, Index.getBypath s'.idx p k = some e ↔ e ∈ s'.idx.entries ∧ e.path = p ∧ e.stage = k) ∧ s'.odb = s.odb := by
  obtain ⟨h1, -, h3, -⟩ := reach_inv h
  obtain ⟨k1, k2, -, k4⟩ := readTree_right h1 h3 hl hg hr
  have k := k4 rfl
  exact ⟨fun p m i => (k.files p m i).symm, k.stage, k.kept, asc_of_inv k2 (fun e he => (k.stage e he).1), k2.agree, k1⟩

/-- It succeeds if the paths are allowed and there are not more than 2^47 of them, unless there is not enough stack. -/
theorem C59_succeeds {s : St} {id : Bytes} {es : List Tree.Entry} (h : Reach tidy env ienv s) (hl : lookupTree s.odb id = .ok es) (hg : Good (trees s.odb) (es.map conv))
    (hv : ∀ p m i, Has (trees s.odb) (some (es.map conv)) p m i → env.pathValid p = true)
    (hn : ∀ l : List Bytes, l.Nodup → (∀ p ∈ l, ∃ m i, Has (trees s.odb) (some (es.map conv)) p m i) → l.length ≤ 2 ^ 47) :
    ∃ N, ∀ fuel, N ≤ fuel → (readTree env fuel s id es).2 = .ok () := readTree_total (reach_inv h).1 hl hg hv hn

/-- A failure leaves the index as it was (but its tree cache is gone), except that when only the tree cache could not be made the index has the files of the tree. -/
theorem C59_fails {s s' : St} {fuel : Nat} {id : Bytes} {es : List Tree.Entry} {x : Int} (h : Reach tidy env ienv s) (hl : lookupTree s.odb id = .ok es)
    (hg : Good (trees s.odb) (es.map conv)) (hr : readTree env fuel s id es = (s', .err x)) :
    s'.cache = none ∧ (s'.idx = s.idx ∨ ∀ p m i, filesIn s'.idx [] p m i ↔ Has (trees s.odb) (some (es.map conv)) p m i) := by
  obtain ⟨h1, -⟩ := reach_inv h
  unfold readTree at hr
  split at hr
  · cases hr; exact ⟨rfl, .inl rfl⟩
  · cases hr
  · rename_i new hw
    have hW := treeWalk_right h1 fuel hw ⟨id, hl⟩ hg
    split at hr
    · cases hr; exact ⟨rfl, .inl rfl⟩
    · cases hr
    · rename_i sorted hs
      have := sort_asc hW.asc hs
      subst this
      split at hr
      · cases hr
      · cases hr; exact ⟨rfl, .inr (fun p m i => (walked_files hW p m i).symm)⟩
      · cases hr

/-- Writing the index that was read from a tree gives the id of that tree. -/
theorem C59_write_back {s s' : St} {fuel fuel' : Nat} {id : Bytes} {es : List Tree.Entry} (h : Reach tidy env ienv s) (hl : lookupTree s.odb id = .ok es)
    (hg : Good (trees s.odb) (es.map conv)) (hr : readTree env fuel s id es = (s', .ok ())) : writeIndex env fuel' s' = (s', .ok id) := by
  obtain ⟨h1, -, h3, -⟩ := reach_inv h
  obtain ⟨-, -, -, k4⟩ := readTree_right h1 h3 hl hg hr
  have k := k4 rfl
  obtain ⟨c, c1, c2, c3⟩ := k.cache
  unfold writeIndex
  rw [if_neg, c1]
  · simp only [if_pos c3, c2]
  · unfold Index.hasConflicts
    rw [Bool.not_eq_true, List.any_eq_false]
    intro e he
    simp [(k.stage e he).1]

/-- An index with the files of a tree gives the id of that tree, if the tree is as this library would write it: whatever the history of the index and its tree cache. -/
theorem C59_roundtrip {s s' : St} {odb : Odb} {fuel : Nat} {id id' : Bytes} {files : Bytes → Nat → Bytes → Prop} (hh : Hashed env odb) (ht : Tidy odb id) (hrep : Represents odb id files)
    (h : Reach true env ienv s) (hf : Fit s.idx) (hsame : ∀ p m i, filesIn s.idx [] p m i ↔ files p m i) (hw : writeIndex env fuel s = (s', .ok id')) (hcl : Collisionless s'.odb) :
    id' = id := by
  obtain ⟨a1, a2, a3, a4⟩ := reach_inv h
  obtain ⟨-, g1, -, -, k1⟩ := writeIndex_right a1 a2 a3 hf hw hcl
  have w1 := k1 id' rfl
  exact tidy_unique (hashed_grows a2 g1) hh (w1.tidy (a4 rfl)) ht (represents_congr w1.files hsame) hrep

/-! ## Examples -/

/-- an id for the examples: 20 bytes, not null -/
def exId (b : Bytes) : Bytes := (7 :: UInt8.ofNat b.length :: (b.reverse ++ List.replicate 20 0)).take 20
def exEnv : Env := ⟨fun n => n ≠ b!".git", fun p => p ≠ b!".git/x", fun n => n.length, exId, true, fun _ => true⟩
def exIEnv : Index.Env := ⟨fun _ => true, fun _ _ => true⟩

theorem exHashed : Hashed exEnv [] := by
  refine ⟨fun o ho => (List.not_mem_nil ho).elim, fun b => ⟨?_, 7, ?_, by decide⟩⟩
  · simp [exEnv, exId]
  · simp [exEnv, exId]

/-- a file of the examples -/
def exFile (p : Bytes) (k : UInt8) : Index.Entry := ⟨p, 0, 0o100644, List.replicate 20 k, [k.toNat]⟩

/-- changing the index, one call after the other -/
def exRun : List Index.Op → St → Option St
  | [], s => some s
  | op :: ops, s => (indexStep exIEnv s op).bind (exRun ops)

theorem exRun_reach (ops : List Index.Op) : ∀ {s s' : St}, Reach tidy exEnv exIEnv s → exRun ops s = some s' → Reach tidy exEnv exIEnv s' := by
  induction ops with
  | nil => intro s s' h hr; simp only [exRun, Option.some.injEq] at hr; subst hr; exact h
  | cons op ops ih =>
    intro s s' h hr
    rw [exRun] at hr
    cases hst : indexStep exIEnv s op with
    | none => rw [hst] at hr; cases hr
    | some s1 => rw [hst] at hr; exact ih (.index h hst) hr

def exOps : List Index.Op := [.add (exFile b!"d/e/c" 3), .add (exFile b!"a" 1), .add (exFile b!"d/b" 2), .add (exFile b!"d-x" 4), .add (exFile b!"gone" 5), .remove b!"gone" 0]
/-- the index with the files `a`, `d-x`, `d/b`, `d/e/c` -/
def exS : St := (exRun exOps ⟨Index.init, none, []⟩).getD ⟨Index.init, none, []⟩

theorem exS_some : (exRun exOps ⟨Index.init, none, []⟩).isSome = true := by decide +kernel
theorem exS_reach : Reach tidy exEnv exIEnv exS := by
  refine exRun_reach exOps (.start exHashed) ?_
  obtain ⟨x, hx⟩ := Option.isSome_iff_exists.mp exS_some
  rw [exS, hx]; rfl

theorem exS_entries : exS.idx.entries = [exFile b!"a" 1, exFile b!"d-x" 4, exFile b!"d/b" 2, exFile b!"d/e/c" 3] := by decide +kernel

theorem goodPath_of {p : Bytes} (h0 : (0 : UInt8) ∉ p) (h : ∀ k ≤ p.length, (k = 0 ∨ (p.take k).getLast? = some c!"/") → p.drop k ≠ [] ∧ (p.drop k).head? ≠ some c!"/") : GoodPath p := by
  refine ⟨h0, ?_⟩
  rintro a q rfl ha
  have := h a.length (by simp) (by
    rcases ha with rfl | ha
    · exact .inl rfl
    · right; simpa using ha)
  simpa using this

theorem exS_fit : Fit exS.idx := by
  constructor <;> try rw [exS_entries]
  · intro e he
    simp only [List.mem_cons, List.not_mem_nil, or_false] at he
    rcases he with rfl | rfl | rfl | rfl <;> exact ⟨goodPath_of (by decide) (by decide), by decide⟩
  · decide
  · decide
  · intro x hx y hy
    rw [exS_entries] at hx hy
    simp only [List.mem_cons, List.not_mem_nil, or_false] at hx hy
    rintro ⟨r, hr⟩
    rcases hx with rfl | rfl | rfl | rfl <;> rcases hy with rfl | rfl | rfl | rfl <;> simp [exFile] at hr
  · decide

theorem component_of {w p : Bytes} (h : Component w p) : ∃ j ≤ p.length, ∃ k ≤ p.length, w = (p.drop j).take k ∧ c!"/" ∉ w := by
  obtain ⟨a, b, rfl, -, -, hw⟩ := h
  exact ⟨a.length, by simp, w.length, by simp; omega, by simp, hw⟩

theorem exS_acceptable : Acceptable exEnv exS.idx := by
  constructor <;> rw [exS_entries]
  · intro e he
    simp only [List.mem_cons, List.not_mem_nil, or_false] at he
    rcases he with rfl | rfl | rfl | rfl <;> exact .inl rfl
  · intro e he w hw
    obtain ⟨j, hj, k, hk, rfl, -⟩ := component_of hw
    have : ∀ e ∈ [exFile b!"a" 1, exFile b!"d-x" 4, exFile b!"d/b" 2, exFile b!"d/e/c" 3], ∀ j ≤ e.path.length, ∀ k ≤ e.path.length, exEnv.nameValid ((e.path.drop j).take k) = true := by
      decide +kernel
    exact this e he j hj k hk
  · intro e he
    simp only [List.mem_cons, List.not_mem_nil, or_false] at he
    rcases he with rfl | rfl | rfl | rfl
    · exact ⟨1, by decide, by decide⟩
    · exact ⟨4, by decide, by decide⟩
    · exact ⟨2, by decide, by decide⟩
    · exact ⟨3, by decide, by decide⟩
  · intro e _ _; exact .inr rfl

/-- what `git_index_write_tree` writes for it: first `d/e`, then `d`, then the root, in which the directory `d` comes after `d-x` -/
def exE : Bytes := b!"100644 c" ++ [0] ++ List.replicate 20 3
def exD : Bytes := b!"100644 b" ++ [0] ++ List.replicate 20 2 ++ b!"40000 e" ++ [0] ++ exId exE
def exRoot : Bytes := b!"100644 a" ++ [0] ++ List.replicate 20 1 ++ b!"100644 d-x" ++ [0] ++ List.replicate 20 4 ++ b!"40000 d" ++ [0] ++ exId exD

example : (writeIndex exEnv 20 exS).2 = .ok (exId exRoot) ∧ (writeIndex exEnv 20 exS).1.odb = [(exId exE, exE), (exId exD, exD), (exId exRoot, exRoot)] := by decide +kernel

theorem exW : ∃ s', writeIndex exEnv 20 exS = (s', .ok (exId exRoot)) ∧ Collisionless s'.odb := by
  have h2 : (writeIndex exEnv 20 exS).2 = .ok (exId exRoot) := by decide +kernel
  refine ⟨(writeIndex exEnv 20 exS).1, ?_, ?_⟩
  · rw [← h2]
  · have : (writeIndex exEnv 20 exS).1.odb = [(exId exE, exE), (exId exD, exD), (exId exRoot, exRoot)] := by decide +kernel
    rw [this]
    intro x hx y hy h
    simp only [List.mem_cons, List.not_mem_nil, or_false] at hx hy
    rcases hx with rfl | rfl | rfl <;> rcases hy with rfl | rfl | rfl <;> first | rfl | (exfalso; revert h; decide +kernel)

/-- the tree has the four files -/
example : ∃ s' : St, Represents s'.odb (exId exRoot) (filesIn exS.idx []) := by
  obtain ⟨s', h1, h2⟩ := exW
  exact ⟨s', (C58_write_tree (tidy := true) exS_reach exS_fit h1 h2).1⟩

example : ∀ fuel, ∃ e, (writeIndex exEnv fuel ((indexStep exIEnv exS (.conflictAdd none (some (exFile b!"z" 1)) none)).getD exS)).2 = Res.err e := by
  intro fuel
  refine ⟨EUNMERGED, ?_⟩
  rw [C58_unmerged]
  exact ⟨⟨b!"z", 2, 0o100644, List.replicate 20 1, [1]⟩, by decide +kernel, by decide⟩

/-- after the write the cache knows the root and the two directories; adding `d/e/new` forgets them all, adding `new` only the root -/
def exW1 : St := (writeIndex exEnv 20 exS).1
def exValid (s : St) (d : Bytes) : Option Bool := (cacheGet s.cache d).map (fun c => decide (0 ≤ c.count))
example : (exW1.cache.map (fun c => c.count), exValid exW1 b!"d", exValid exW1 b!"d/e", exValid exW1 b!"d-x") = (some 4, some true, some true, none) := by decide +kernel
example : (indexStep exIEnv exW1 (.add (exFile b!"d/e/new" 9))).map (fun s => (s.cache.map (fun c => c.count), exValid s b!"d", exValid s b!"d/e")) = some (some (-1), some false, some false) := by
  decide +kernel
example : (indexStep exIEnv exW1 (.add (exFile b!"new" 9))).map (fun s => (s.cache.map (fun c => c.count), exValid s b!"d", exValid s b!"d/e")) = some (some (-1), some true, some true) := by
  decide +kernel

/-- another history with the same files and a warm cache gives the same id -/
def exS2 : St := (exRun [.add (exFile b!"d/e/new" 9), .add (exFile b!"new" 8), .remove b!"d/e/new" 0, .remove b!"new" 0] exW1).getD exW1
example : exS2.cache.isSome = true ∧ exS2.idx.entries = exS.idx.entries ∧ (writeIndex exEnv 20 exS2).2 = .ok (exId exRoot) := by decide +kernel

/-- reading the tree into an index in which `a` is known (with stat data) and `d` is a file -/
def exOld : St := (exRun [.add ⟨b!"a", 0, 0o100644, List.replicate 20 1, [77]⟩, .add (exFile b!"d" 6)] ⟨Index.init, none, exW1.odb⟩).getD exS
def exEs : List Tree.Entry := match lookupTree exW1.odb (exId exRoot) with
  | .ok es => es
  | _ => []
example : (readTree exEnv 10 exOld (exId exRoot) exEs).2 = .ok () ∧
    (readTree exEnv 10 exOld (exId exRoot) exEs).1.idx.entries.map (fun e => (e.path, e.rest)) = [(b!"a", [77]), (b!"d-x", []), (b!"d/b", []), (b!"d/e/c", [])] := by decide +kernel
example : (writeIndex exEnv 1 (readTree exEnv 10 exOld (exId exRoot) exEs).1).2 = .ok (exId exRoot) := by decide +kernel

/-- FINDING. A file and a directory of the same name (C51 says how they can come into an index): the file is silently left out of the tree. -/
example : (writeIndex exEnv 20 ⟨⟨[exFile b!"a" 1, exFile b!"a/b" 2], fun _ _ => none⟩, none, []⟩).1.odb.map (·.2) =
    [b!"100644 b" ++ [0] ++ List.replicate 20 2, b!"40000 a" ++ [0] ++ exId (b!"100644 b" ++ [0] ++ List.replicate 20 2)] := by decide +kernel

end Verif.IndexTree
