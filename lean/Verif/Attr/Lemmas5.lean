import Verif.Attr.Lemmas4
import Verif.Ignore.Props
/-! # Which rules are for a path, and what they say -/
namespace Verif.Attr
open Spec
open Ignore (APath Wf applies applies_iff)
open Ignore.Spec (Rule)

theorem fnmatch_eq (m : Rule) (p : APath) : fnmatch m p = applies p m := by
  unfold fnmatch applies Ignore.fnmatch
  dsimp only
  by_cases h : m.directory = true ∧ ¬ p.isDir = true
  · have : (m.directory && !p.isDir) = true := by simp at h ⊢; exact h
    rw [this, if_pos h]
    simp only [Bool.not_true, Bool.false_and, ite_self]
  · have : (m.directory && !p.isDir) = false := by
      cases h1 : m.directory <;> cases h2 : p.isDir <;> simp [h1, h2] at h ⊢
    rw [this, if_neg h, if_neg h]
    simp only [Bool.not_false, Bool.true_and]
    cases m.below <;> rfl

theorem ruleMatch_iff {p : APath} (hp : Wf p) (r : ARule) : ruleMatch r p = true ↔ Hits r.1 p.path p.isDir := by
  unfold ruleMatch Hits
  rw [fnmatch_eq, ← applies_iff hp]
  cases r.1.negative <;> cases applies p r.1 <;> simp

/-! ## In one list of rules -/

/-- all assignments, in the order they are looked at -/
def flat (rs : List ARule) : List Assign := rs.flatMap (·.2)

theorem find_sorted {as : List Assign} (h : AsSorted as) (n : Bytes) : findAssign as n = .ok (as.find? (fun a => a.name = n)) := by
  rcases findAssign_ok h n with ⟨a, h1, h2, h3⟩ | ⟨h1, h2⟩
  · rw [h1]
    congr 1
    cases hf : as.find? (fun a => decide (a.name = n)) with
    | none =>
      have := List.find?_eq_none.mp hf a h2
      simp [h3] at this
    | some b =>
      have hb := List.mem_of_find?_eq_some hf
      have hn := List.find?_some hf
      simp at hn
      rw [h.unique h2 hb (by rw [h3, hn])]
  · rw [h1]
    congr 1
    symm
    rw [List.find?_eq_none]
    intro a ha
    simpa using h2 a ha

theorem getLoop_find (n : Bytes) {rs : List ARule} (h : ∀ r ∈ rs, AsSorted r.2) : getLoop n rs = .ok (((flat rs).find? (fun a => a.name = n)).map Assign.value) := by
  induction rs with
  | nil => rfl
  | cons r rs ih =>
    rw [getLoop, find_sorted (h r (by simp)), show flat (r :: rs) = r.2 ++ flat rs from rfl, List.find?_append]
    cases hf : r.2.find? (fun a => decide (a.name = n)) with
    | none => simpa using ih (fun x hx => h x (by simp [hx]))
    | some a => simp

/-- the first rule that is for the path and gives a value -/
def FirstIn (l : List (Rule × List Assign)) (path : Bytes) (isDir : Bool) (name : Bytes) (v : Value) : Prop :=
  ∃ a r b, l = a ++ r :: b ∧ Hits r.1 path isDir ∧ Gives r.2 name v ∧ ∀ x ∈ a, Hits x.1 path isDir → Mute x.2 name

theorem firstIn_unique {l : List (Rule × List Assign)} {path : Bytes} {isDir : Bool} {name : Bytes} {v w : Value} (h : FirstIn l path isDir name v) (h' : FirstIn l path isDir name w) : v = w := by
  obtain ⟨a, r, b, e, h1, h2, h3⟩ := h
  obtain ⟨a', r', b', e', h1', h2', h3'⟩ := h'
  rw [e] at e'
  rcases List.append_eq_append_iff.mp e' with ⟨t, ht1, ht2⟩ | ⟨t, ht1, ht2⟩
  · cases t with
    | nil =>
      simp at ht2
      rw [ht2.1] at h2
      exact gives_unique h2 h2'
    | cons c t =>
      simp at ht2
      have := h3' r (by rw [ht1, ht2.1]; simp) h1
      exact absurd h2 (mute_iff.mp this v)
  · cases t with
    | nil =>
      simp at ht2
      rw [← ht2.1] at h2
      exact gives_unique h2 h2'
    | cons c t =>
      simp at ht2
      have := h3 r' (by rw [ht1, ht2.1]; simp) h1'
      exact absurd h2' (mute_iff.mp this w)

theorem find_gives {vec as : List Assign} (h : Rep vec as) (n : Bytes) : (∃ a, vec.find? (fun a => a.name = n) = some a ∧ Gives as n a.value) ∨ (vec.find? (fun a => a.name = n) = none ∧ Mute as n) := by
  cases hf : vec.find? (fun a => decide (a.name = n)) with
  | none =>
    right
    refine ⟨rfl, (h.mute n).mp ?_⟩
    intro a ha
    simpa using List.find?_eq_none.mp hf a ha
  | some b =>
    left
    have hb := List.mem_of_find?_eq_some hf
    have hn := List.find?_some hf
    simp at hn
    refine ⟨b, rfl, (h.2 n b.value).mp ?_⟩
    rw [← hn]; exact hb

theorem find_first {p : APath} (hp : Wf p) (name : Bytes) {rs : List ARule} {ss : List (Rule × List Assign)} (h : FRep rs ss) :
    (∃ a, (flat (rs.filter (fun r => ruleMatch r p))).find? (fun a => a.name = name) = some a ∧ FirstIn ss p.path p.isDir name a.value) ∨
    ((flat (rs.filter (fun r => ruleMatch r p))).find? (fun a => a.name = name) = none ∧ ∀ x ∈ ss, Hits x.1 p.path p.isDir → Mute x.2 name) := by
  unfold FRep at h
  induction h with
  | nil => right; exact ⟨rfl, by simp⟩
  | @cons r s rs ss hd _ ih =>
    have hh := ruleMatch_iff hp r
    rw [hd.1] at hh
    by_cases hm : ruleMatch r p = true
    · rw [List.filter_cons_of_pos (p := fun r => ruleMatch r p) hm, show ∀ l, flat (r :: l) = r.2 ++ flat l from fun _ => rfl, List.find?_append]
      rcases find_gives hd.2 name with ⟨a, h1, h2⟩ | ⟨h1, h2⟩
      · left
        exact ⟨a, by rw [h1]; rfl, [], s, ss, rfl, hh.mp hm, h2, by simp⟩
      · rw [h1, Option.none_or]
        rcases ih with ⟨a, h3, x, q, y, e, h4, h5, h6⟩ | ⟨h3, h4⟩
        · left
          refine ⟨a, h3, s :: x, q, y, by rw [e]; rfl, h4, h5, ?_⟩
          intro z hz
          rcases List.mem_cons.mp hz with rfl | hz
          · exact fun _ => h2
          · exact h6 z hz
        · right
          refine ⟨h3, ?_⟩
          intro z hz
          rcases List.mem_cons.mp hz with rfl | hz
          · exact fun _ => h2
          · exact h4 z hz
    · rw [List.filter_cons_of_neg (p := fun r => ruleMatch r p) hm]
      have hno : ¬ Hits s.1 p.path p.isDir := fun h => hm (hh.mpr h)
      rcases ih with ⟨a, h3, x, q, y, e, h4, h5, h6⟩ | ⟨h3, h4⟩
      · left
        refine ⟨a, h3, s :: x, q, y, by rw [e]; rfl, h4, h5, ?_⟩
        intro z hz
        rcases List.mem_cons.mp hz with rfl | hz
        · exact fun h => absurd h hno
        · exact h6 z hz
      · right
        refine ⟨h3, ?_⟩
        intro z hz
        rcases List.mem_cons.mp hz with rfl | hz
        · exact fun h => absurd h hno
        · exact h4 z hz

/-! ## In several files -/

theorem FRep.append {a b : List ARule} {c d : List (Rule × List Assign)} (h : FRep a c) (h' : FRep b d) : FRep (a ++ b) (c ++ d) := by
  unfold FRep at *
  induction h with
  | nil => exact h'
  | cons hd _ ih => exact .cons hd ih

theorem FRep.reverse {a : List ARule} {c : List (Rule × List Assign)} (h : FRep a c) : FRep a.reverse c.reverse := by
  unfold FRep at h
  induction h with
  | nil => exact .nil
  | cons hd _ ih =>
    rw [List.reverse_cons, List.reverse_cons]
    exact ih.append (.cons hd .nil)

/-- the rules of several files -/
def FsRep (fs : List (List ARule)) (ss : List (List (Rule × List Assign))) : Prop := List.Forall₂ FRep fs ss

theorem FsRep.flat {fs : List (List ARule)} {ss : List (List (Rule × List Assign))} (h : FsRep fs ss) : FRep (fs.flatMap List.reverse) (ss.flatMap List.reverse) := by
  unfold FsRep at h
  induction h with
  | nil => exact .nil
  | cons hd _ ih =>
    rw [List.flatMap_cons, List.flatMap_cons]
    exact hd.reverse.append ih

theorem allMatching_eq (fs : List (List ARule)) (p : APath) : allMatching fs p = (fs.flatMap List.reverse).filter (fun r => ruleMatch r p) := by
  unfold allMatching matchingRules
  rw [List.filter_flatMap]

theorem decides_iff {ss : List (List (Rule × List Assign))} {path : Bytes} {isDir : Bool} {name : Bytes} {v : Value} :
    Decides ss path isDir name v ↔ FirstIn (ss.flatMap List.reverse) path isDir name v := by
  constructor
  · rintro ⟨before, src, after, pre, r, post, rfl, rfl, h1, h2, h3, h4⟩
    refine ⟨before.flatMap List.reverse ++ post.reverse, r, pre.reverse ++ after.flatMap List.reverse, by simp, h1, h2, ?_⟩
    intro x hx
    rcases List.mem_append.mp hx with hx | hx
    · obtain ⟨s, hs, hx⟩ := List.mem_flatMap.mp hx
      exact h4 s hs x (List.mem_reverse.mp hx)
    · exact h3 x (List.mem_reverse.mp hx)
  · induction ss with
    | nil =>
      rintro ⟨a, r, b, h, -⟩
      simp at h
    | cons s ss ih =>
      rintro ⟨a, r, b, e, h1, h2, h3⟩
      rw [List.flatMap_cons] at e
      rcases List.append_eq_append_iff.mp e with ⟨t, ht1, ht2⟩ | ⟨t, ht1, ht2⟩
      · obtain ⟨before, src, after, pre, r', post, e1, e2, g1, g2, g3, g4⟩ := ih ⟨t, r, b, ht2, h1, h2, fun x hx => h3 x (by rw [ht1]; simp [hx])⟩
        refine ⟨s :: before, src, after, pre, r', post, by rw [e1]; rfl, e2, g1, g2, g3, ?_⟩
        intro z hz x hx
        rcases List.mem_cons.mp hz with rfl | hz
        · exact h3 x (by rw [ht1]; simp [hx])
        · exact g4 z hz x hx
      · cases t with
        | nil =>
          rw [List.nil_append] at ht2
          rw [List.append_nil] at ht1
          obtain ⟨before, src, after, pre, r', post, e1, e2, g1, g2, g3, g4⟩ := ih ⟨[], r, b, ht2.symm, h1, h2, by simp⟩
          refine ⟨s :: before, src, after, pre, r', post, by rw [e1]; rfl, e2, g1, g2, g3, ?_⟩
          intro z hz x hx
          rcases List.mem_cons.mp hz with rfl | hz
          · exact h3 x (by rw [← ht1]; simp [hx])
          · exact g4 z hz x hx
        | cons c t =>
          simp only [List.cons_append, List.cons.injEq] at ht2
          obtain ⟨rfl, rfl⟩ := ht2
          refine ⟨[], s, ss, t.reverse, r, a.reverse, rfl, ?_, h1, h2, ?_, by simp⟩
          · have := congrArg List.reverse ht1
            rw [List.reverse_reverse] at this
            rw [this]; simp
          · intro x hx
            exact h3 x (List.mem_reverse.mp hx)

theorem silent_iff {ss : List (List (Rule × List Assign))} {path : Bytes} {isDir : Bool} {name : Bytes} :
    Silent ss path isDir name ↔ ∀ x ∈ ss.flatMap List.reverse, Hits x.1 path isDir → Mute x.2 name := by
  unfold Silent
  constructor
  · intro h x hx
    obtain ⟨s, hs, hx⟩ := List.mem_flatMap.mp hx
    exact h s hs x (List.mem_reverse.mp hx)
  · intro h s hs x hx
    exact h x (List.mem_flatMap.mpr ⟨s, hs, List.mem_reverse.mpr hx⟩)

/-- what the files say about an attribute of a path, as the code finds it -/
def saysOf (fs : List (List ARule)) (p : APath) (name : Bytes) : Option Value := ((flat (allMatching fs p)).find? (fun a => a.name = name)).map Assign.value

theorem FRep.sorted {rs : List ARule} {ss : List (Rule × List Assign)} (h : FRep rs ss) : ∀ r ∈ rs, AsSorted r.2 := by
  unfold FRep at h
  induction h with
  | nil => simp
  | cons hd _ ih =>
    intro r hr
    rcases List.mem_cons.mp hr with rfl | hr
    · exact hd.2.1
    · exact ih r hr

theorem sorted_matching {fs : List (List ARule)} {ss : List (List (Rule × List Assign))} (h : FsRep fs ss) (p : APath) : ∀ r ∈ allMatching fs p, AsSorted r.2 := by
  intro r hr
  rw [allMatching_eq] at hr
  exact h.flat.sorted r (List.mem_filter.mp hr).1

theorem getValue_says {fs : List (List ARule)} {ss : List (List (Rule × List Assign))} (h : FsRep fs ss) (p : APath) (name : Bytes) : getValue fs p name = .ok (saysOf fs p name) :=
  getLoop_find name (sorted_matching h p)

/-- what is found is what the rules decide -/
theorem says_iff {fs : List (List ARule)} {ss : List (List (Rule × List Assign))} (h : FsRep fs ss) {p : APath} (hp : Wf p) (name : Bytes) :
    (∀ v, saysOf fs p name = some v ↔ Decides ss p.path p.isDir name v) ∧ (saysOf fs p name = none ↔ Silent ss p.path p.isDir name) := by
  unfold saysOf
  rw [allMatching_eq]
  rcases find_first hp name h.flat with ⟨a, h1, h2⟩ | ⟨h1, h2⟩
  · rw [h1]
    refine ⟨?_, ?_⟩
    · intro v
      rw [decides_iff]
      constructor
      · intro e; cases e; exact h2
      · intro h3; rw [Option.map_some, firstIn_unique h2 h3]
    · simp only [Option.map_some, reduceCtorEq, false_iff]
      rw [silent_iff]
      intro h3
      obtain ⟨x, r, y, e, g1, g2, g3⟩ := h2
      exact mute_iff.mp (h3 r (by rw [e]; simp) g1) _ g2
  · rw [h1]
    refine ⟨?_, ?_⟩
    · intro v
      simp only [Option.map_none, reduceCtorEq, false_iff]
      rw [decides_iff]
      rintro ⟨x, r, y, e, g1, g2, g3⟩
      exact mute_iff.mp (h2 r (by rw [e]; simp) g1) _ g2
    · simp only [Option.map_none, true_iff]
      rw [silent_iff]; exact h2

/-! ## Several attributes at once -/

/-- what is known of an attribute after more rules -/
def after (rs : List ARule) (x : Bytes × Option Value) : Bytes × Option Value :=
  (x.1, if x.2 = none then ((flat rs).find? (fun a => a.name = x.1)).map Assign.value else x.2)

theorem manyRule_eq {as : List Assign} (h : AsSorted as) (l : List (Bytes × Option Value)) (r : Rule) : manyRule as l = .ok (l.map (after [(r, as)])) := by
  induction l with
  | nil => rfl
  | cons x l ih =>
    obtain ⟨n, f⟩ := x
    rw [manyRule, ih]
    cases f with
    | none =>
      rw [if_pos rfl, find_sorted h]
      simp [after, flat]
    | some v =>
      rw [if_neg (by simp)]
      simp [after]

theorem after_cons (r : ARule) (rs : List ARule) (x : Bytes × Option Value) : after rs (after [r] x) = after (r :: rs) x := by
  obtain ⟨n, f⟩ := x
  unfold after flat
  cases f with
  | some v => simp
  | none =>
    simp only [if_true, List.flatMap_cons, List.flatMap_nil, List.append_nil, List.find?_append]
    cases hf : r.2.find? (fun a => decide (a.name = n)) with
    | none => simp
    | some a => simp

theorem manyLoop_eq {rs : List ARule} (h : ∀ r ∈ rs, AsSorted r.2) (l : List (Bytes × Option Value)) : manyLoop rs l = .ok (l.map (after rs)) := by
  induction rs generalizing l with
  | nil =>
    rw [manyLoop]
    congr 1
    symm
    conv => rhs; rw [← List.map_id l]
    apply List.map_congr_left
    intro x _
    obtain ⟨n, f⟩ := x
    cases f <;> simp [after, flat]
  | cons r rs ih =>
    rw [manyLoop, manyRule_eq (h r (by simp)) l r.1]
    dsimp only
    have e : (l.map (after [r])).map (after rs) = l.map (after (r :: rs)) := by
      rw [List.map_map]
      apply List.map_congr_left
      intro x _
      exact after_cons r rs x
    split
    · rename_i hall
      rw [← e]
      congr 1
      symm
      conv => rhs; rw [← List.map_id (l.map (after [r]))]
      apply List.map_congr_left
      intro x hx
      have := List.all_eq_true.mp hall x hx
      obtain ⟨n, f⟩ := x
      cases f with
      | none => simp at this
      | some v => simp [after]
    · rw [ih (fun x hx => h x (by simp [hx])), e]

theorem getMany_says {fs : List (List ARule)} {ss : List (List (Rule × List Assign))} (h : FsRep fs ss) (p : APath) (names : List Bytes) :
    getMany fs p names = .ok (names.map (saysOf fs p)) := by
  unfold getMany
  by_cases hn : names = []
  · rw [if_pos hn, hn]; rfl
  · rw [if_neg hn, manyLoop_eq (sorted_matching h p)]
    simp only [List.map_map]
    congr 1

/-! ## All attributes -/

/-- what the callback is called with if it never stops: every name once, with the first assignment -/
def once : List Bytes → List Assign → List Assign
  | _, [] => []
  | seen, a :: as => if a.name ∈ seen then once seen as else a :: once (a.name :: seen) as

/-- calling the callback until it stops -/
def run (cb : List Assign → Assign → Int) : List Assign → List Assign → List Assign × Int
  | [], calls => (calls, 0)
  | a :: as, calls => if cb calls a ≠ 0 then (a :: calls, cb calls a) else run cb as (a :: calls)

theorem foreachAssigns_eq (cb : List Assign → Assign → Int) (as : List Assign) : ∀ calls seen,
    (foreachAssigns cb as calls seen).1 = (run cb (once seen as) calls).1 ∧ (foreachAssigns cb as calls seen).2.2 = (run cb (once seen as) calls).2 ∧
    ((foreachAssigns cb as calls seen).2.2 = 0 → ∀ l, run cb (once seen (as ++ l)) calls = run cb (once (foreachAssigns cb as calls seen).2.1 l) (foreachAssigns cb as calls seen).1) ∧
    ((foreachAssigns cb as calls seen).2.2 ≠ 0 → ∀ l, run cb (once seen (as ++ l)) calls = run cb (once seen as) calls) := by
  induction as with
  | nil =>
    intro calls seen
    exact ⟨rfl, rfl, fun _ l => rfl, fun h => absurd rfl h⟩
  | cons a as ih =>
    intro calls seen
    simp only [List.cons_append]
    rw [foreachAssigns, once]
    by_cases hm : a.name ∈ seen
    · rw [if_pos hm, if_pos hm]
      simp only [once, if_pos hm]
      exact ih calls seen
    · rw [if_neg hm, if_neg hm]
      dsimp only
      rw [run]
      simp only [once, if_neg hm, run]
      by_cases he : cb calls a ≠ 0
      · simp only [if_pos he]
        exact ⟨trivial, trivial, fun h => absurd h he, fun _ l => trivial⟩
      · simp only [if_neg he]
        exact ih _ _

theorem foreachLoop_eq (cb : List Assign → Assign → Int) (rs : List ARule) : ∀ calls seen, foreachLoop cb rs calls seen = run cb (once seen (flat rs)) calls := by
  induction rs with
  | nil => intro calls seen; rfl
  | cons r rs ih =>
    intro calls seen
    obtain ⟨h1, h2, h3, h4⟩ := foreachAssigns_eq cb r.2 calls seen
    rw [foreachLoop, show flat (r :: rs) = r.2 ++ flat rs from rfl]
    generalize foreachAssigns cb r.2 calls seen = t at *
    obtain ⟨c, s, e⟩ := t
    dsimp only at *
    by_cases he : e ≠ 0
    · rw [if_pos he, h4 he, h1, h2]
    · rw [if_neg he, ih, h3 (by simpa using he)]

theorem once_names (as : List Assign) : ∀ seen, (once seen as).Pairwise (fun a b => a.name ≠ b.name) ∧ ∀ a ∈ once seen as, a.name ∉ seen := by
  induction as with
  | nil => intro seen; simp [once]
  | cons a as ih =>
    intro seen
    rw [once]
    split
    · exact ih seen
    · rename_i h
      obtain ⟨h1, h2⟩ := ih (a.name :: seen)
      refine ⟨List.pairwise_cons.mpr ⟨?_, h1⟩, ?_⟩
      · intro b hb e
        exact h2 b hb (by simp [e])
      · intro b hb
        rcases List.mem_cons.mp hb with rfl | hb
        · exact h
        · intro hs
          exact h2 b hb (by simp [hs])

theorem once_mem (as : List Assign) : ∀ (seen : List Bytes) (n : Bytes) (v : Value), n ∉ seen → ((⟨n, v⟩ : Assign) ∈ once seen as ↔ (as.find? (fun a => a.name = n)).map Assign.value = some v) := by
  induction as with
  | nil => intro seen n v _; simp [once]
  | cons a as ih =>
    intro seen n v hn
    rw [once, List.find?_cons]
    by_cases ha : a.name = n
    · rw [if_neg (by rw [ha]; exact hn)]
      simp only [ha, decide_true, Option.map_some, Option.some.injEq, List.mem_cons]
      constructor
      · rintro (rfl | h)
        · rfl
        · have := (once_names as _).2 _ h
          simp at this
      · intro h
        left
        cases a
        simp at ha h
        rw [ha, h]
    · simp only [ha, decide_false]
      split
      · exact ih seen n v hn
      · rw [List.mem_cons, ih _ n v (by simp [hn, Ne.symm ha])]
        constructor
        · rintro (rfl | h)
          · exact absurd rfl ha
          · exact h
        · exact .inr

/-- what is called, and what comes back -/
theorem run_ok (cb : List Assign → Assign → Int) (l : List Assign) : ∀ calls, ∃ k, (run cb l calls).1 = (l.take k).reverse ++ calls ∧
    (∀ a x b, l.take k = a ++ x :: b → b ≠ [] → cb (a.reverse ++ calls) x = 0) ∧
    ((run cb l calls).2 = 0 → l.take k = l ∧ ∀ a x, l.take k = a ++ [x] → cb (a.reverse ++ calls) x = 0) ∧
    ((run cb l calls).2 ≠ 0 → ∃ a x, l.take k = a ++ [x] ∧ cb (a.reverse ++ calls) x = (run cb l calls).2) := by
  induction l with
  | nil =>
    intro calls
    refine ⟨0, rfl, by simp, fun _ => ⟨rfl, by simp⟩, fun h => absurd rfl h⟩
  | cons y l ih =>
    intro calls
    rw [run]
    by_cases he : cb calls y ≠ 0
    · rw [if_pos he]
      refine ⟨1, by simp, ?_, fun h => absurd h he, fun _ => ⟨[], y, rfl, rfl⟩⟩
      intro a x b e hb
      simp at e
      cases a with
      | nil => simp at e; exact absurd e.2 hb
      | cons c a => simp at e
    · rw [if_neg he]
      obtain ⟨k, h1, h2, h3, h4⟩ := ih (y :: calls)
      have he : cb calls y = 0 := by simpa using he
      refine ⟨k + 1, by rw [h1]; simp, ?_, ?_, ?_⟩
      · intro a x b e hb
        cases a with
        | nil => simp at e; obtain ⟨rfl, -⟩ := e; exact he
        | cons c a =>
          simp at e
          have := h2 a x b e.2 hb
          rw [← e.1]
          simpa using this
      · intro h
        obtain ⟨g1, g2⟩ := h3 h
        refine ⟨by simp only [List.take_succ_cons, g1], ?_⟩
        intro a x e
        cases a with
        | nil => simp at e; obtain ⟨rfl, -⟩ := e; exact he
        | cons c a =>
          simp at e
          have := g2 a x e.2
          rw [← e.1]
          simpa using this
      · intro h
        obtain ⟨a, x, e, g⟩ := h4 h
        refine ⟨y :: a, x, by simp [e], by rw [← g]; simp⟩

end Verif.Attr
