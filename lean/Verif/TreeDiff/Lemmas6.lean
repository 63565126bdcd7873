import Verif.TreeDiff.Lemmas5
import Verif.Ignore.Lemmas2
/-! # The diff of two trees -/
namespace Verif.TreeDiff
open Spec B

theorem lookup_eq_some {L : List Item} {p : Bytes} {x : Item} (h : lookup L p = some x) : x ∈ L ∧ x.path = p := by
  unfold lookup at h
  have h1 := List.mem_of_find?_eq_some h
  have h2 := List.find?_some h
  exact ⟨h1, by simpa using h2⟩

/-- a path is in the range of the options -/
def Here (o : Opts) (p : Bytes) : Prop := (∀ s, o.start = some s → s ≤ p) ∧ (∀ e, o.stop = some e → p ≤ e ∨ e <+: p) ∧ Listed o.pathlist p

/-- what an iterator without directories has at a path -/
theorem lookup_wanted {store : Store} {o : Opts} {tree : Option (List Entry)} {p : Bytes} {f : Option (Nat × Bytes)} {L : List Item} (ha : o.autoexpand = true) (hi : o.includeTrees = false)
    (hg : ∀ es, tree = some es → Good store es)
    (h1 : ∀ x ∈ L, ∃ es q e, tree = some es ∧ At store es q e ∧ x = ⟨q, e.mode, e.id⟩ ∧ (o.autoexpand = false → e ∈ es ∧ q = key e) ∧ (e.isTree = true ↔ q.getLast? = some c!"/"))
    (h2 : ∀ es q e, tree = some es → At store es q e → (o.autoexpand = true ∨ (e ∈ es ∧ q = key e)) → (⟨q, e.mode, e.id⟩ : Item) ∈ L) (hs : Says store tree p f) :
    (Here o p → lookup (wanted o L) p = f.map (fun x => ⟨p, x.1, x.2⟩)) ∧ (¬ Here o p → lookup (wanted o L) p = none) := by
  have hw : ∀ x ∈ wanted o L, x.path = p → f = some (x.mode, x.id) ∧ Here o p := by
    intro x hx hp
    unfold wanted at hx
    rw [List.mem_filter] at hx
    have hx2 : Wanted o x := by simpa using hx.2
    obtain ⟨es, q, e, he, hat, hxe, _, htr⟩ := h1 x hx.1
    have hne : x.path.getLast? ≠ some c!"/" := by
      intro h
      have := hx2.2.2.2 h
      rw [hi] at this; cases this
    subst hxe
    simp only at hp hne ⊢
    subst hp
    have hnt : e.isTree = false := by
      cases h : e.isTree with
      | false => rfl
      | true => exact absurd (htr.mp h) hne
    refine ⟨(hs _ _).mpr ⟨es, e, he, hat, hnt, rfl, rfl⟩, ?_, hx2.2.1, hx2.2.2.1⟩
    intro s hs'
    rcases hx2.1 s hs' with h | h
    · exact h
    · exact absurd h.1 hne
  constructor
  · intro hh
    cases hf : f with
    | none =>
      rw [Option.map_none]
      refine lookup_none ?_
      intro x hx hp
      have := (hw x hx hp).1
      rw [hf] at this; cases this
    | some v =>
      obtain ⟨m, i⟩ := v
      obtain ⟨es, e, he, hat, hnt, rfl, rfl⟩ := (hs m i).mp hf
      have hmem : (⟨p, e.mode, e.id⟩ : Item) ∈ wanted o L := by
        unfold wanted
        rw [List.mem_filter]
        refine ⟨h2 es p e he hat (Or.inl ha), ?_⟩
        have hnl : p.getLast? ≠ some c!"/" := by
          intro h
          have := (at_path (hg es he) hat).2.2.2.1.mpr h
          rw [hnt] at this; cases this
        have : Wanted o ⟨p, e.mode, e.id⟩ := ⟨fun s hs' => Or.inl (hh.1 s hs'), hh.2.1, hh.2.2, fun h => absurd h hnl⟩
        simp [this]
      cases hl : lookup (wanted o L) p with
      | none =>
        unfold lookup at hl
        rw [List.find?_eq_none] at hl
        have := hl _ hmem
        simp at this
      | some x =>
        obtain ⟨hx, hp⟩ := lookup_eq_some hl
        have := (hw x hx hp).1
        rw [hf] at this
        obtain ⟨xp, xm, xi⟩ := x
        simp only [Option.some.injEq, Prod.mk.injEq] at this hp ⊢
        subst hp
        simp [this]
  · intro hh
    refine lookup_none ?_
    intro x hx hp
    exact hh (hw x hx hp).2

/-! ## The deltas of a path -/

theorem exists_ne_zero {l : Bytes} : (∃ c ∈ l, c ≠ 0) ↔ isZero l = false := by
  unfold isZero
  rw [List.all_eq_false]
  simp

theorem one_expected {d : Diff} {p : Bytes} {f g : Option (Nat × Bytes)} (hm : ∀ x, (f = some x ∨ g = some x) → diffPathspecMatch d ⟨p, x.1, x.2⟩ = true) :
    one d (f.map (fun x => ⟨p, x.1, x.2⟩)) (g.map (fun x => ⟨p, x.1, x.2⟩)) =
      (if d.opts.reverse then (expected d.opts.includeUnmodified d.opts.includeTypechange d.opts.ignoreSubmodules p f g).map turn
       else expected d.opts.includeUnmodified d.opts.includeTypechange d.opts.ignoreSubmodules p f g) := by
  cases f with
  | none =>
    cases g with
    | none => simp [one, expected]
    | some g =>
      have := hm g (Or.inr rfl)
      cases hr : d.opts.reverse <;> simp [one, expected, fromOne, this, hr, allocStatus, turn, file]
  | some f =>
    have hf := hm f (Or.inl rfl)
    cases g with
    | none =>
      cases hr : d.opts.reverse <;> simp [one, expected, fromOne, hf, hr, allocStatus, turn, file]
    | some g =>
      have hg := hm g (Or.inr rfl)
      have hk : ∀ y : Nat × Bytes, kind y = modeType y.1 := fun y => rfl
      have heq : (f = g ∧ ∃ c ∈ f.2, c ≠ 0) ↔ (f.2 = g.2 ∧ f.1 = g.1 ∧ isZero f.2 = false) := by
        rw [exists_ne_zero, Prod.ext_iff]
        constructor
        · rintro ⟨⟨a, b⟩, c⟩; exact ⟨b, a, c⟩
        · rintro ⟨a, b, c⟩; exact ⟨⟨b, a⟩, c⟩
      simp only [one, Option.map_some, expected, maybeModified, hf, hk, heq, Bool.true_eq_false, if_false]
      by_cases h1 : modeType f.1 = modeType g.1
      · simp only [h1, ne_eq, not_true, if_false]
        by_cases h2 : f.2 = g.2 ∧ f.1 = g.1 ∧ isZero f.2 = false
        · rw [if_pos h2, if_pos (Or.inl h2)]
          cases hu : d.opts.includeUnmodified <;> cases hr : d.opts.reverse <;> simp [fromTwo, hr, allocStatus, turn, file, hu]
        · rw [if_neg h2]
          by_cases h3 : modeType g.1 = 0o16 ∧ d.opts.ignoreSubmodules = true
          · rw [if_pos h3, if_pos (Or.inr h3)]
            cases hu : d.opts.includeUnmodified <;> cases hr : d.opts.reverse <;> simp [fromTwo, hr, allocStatus, turn, file, hu]
          · have h4 : ¬ ((f.2 = g.2 ∧ f.1 = g.1 ∧ isZero f.2 = false) ∨ (modeType g.1 = 0o16 ∧ d.opts.ignoreSubmodules = true)) := fun h => h.elim h2 h3
            simp only [if_neg h3, if_neg h4]
            cases hr : d.opts.reverse <;> simp [fromTwo, hr, allocStatus, turn, file]
      · simp only [h1, ne_eq, not_false_eq_true, if_true]
        cases ht : d.opts.includeTypechange <;> cases hr : d.opts.reverse <;> simp [fromTwo, fromOne, hf, hg, hr, allocStatus, turn, file]

theorem one_none {d : Diff} {p : Bytes} {f g : Option (Nat × Bytes)} (hm : ∀ x, (f = some x ∨ g = some x) → diffPathspecMatch d ⟨p, x.1, x.2⟩ = false) :
    one d (f.map (fun x => ⟨p, x.1, x.2⟩)) (g.map (fun x => ⟨p, x.1, x.2⟩)) = [] := by
  cases f with
  | none =>
    cases g with
    | none => simp [one]
    | some g => simp [one, fromOne, hm g (Or.inr rfl)]
  | some f =>
    cases g with
    | none => simp [one, fromOne, hm f (Or.inl rfl)]
    | some g => simp [one, maybeModified, hm f (Or.inl rfl)]

/-- the options of the iterators -/
theorem iter_opts (o : DOptions) : (initCommon (iterOptions o)).autoexpand = true ∧ (initCommon (iterOptions o)).includeTrees = false := by
  unfold iterOptions initCommon
  split <;> simp

/-- the diff, path by path -/
theorem diff_general {store : Store} {o : DOptions} {old new : Option (List Entry)} (ht : o.includeTypechangeTrees = false) (hgo : ∀ es, old = some es → Good store es)
    (hgn : ∀ es, new = some es → Good store es) (hopt : GoodOpts (initCommon (iterOptions o))) :
    ∃ N deltas, (∀ fuel, N ≤ fuel → treeToTree store o fuel old new = some (.ok deltas)) ∧ deltas.Pairwise (fun a b => a.path ≤ b.path) ∧
      ∀ p f g, Says store old p f → Says store new p g →
        (Here (initCommon (iterOptions o)) p → deltas.filter (fun dl => dl.path = p) =
          one (applyOptions o) (f.map (fun x => ⟨p, x.1, x.2⟩)) (g.map (fun x => ⟨p, x.1, x.2⟩))) ∧
        (¬ Here (initCommon (iterOptions o)) p → deltas.filter (fun dl => dl.path = p) = []) := by
  obtain ⟨L, i1, s1, m1, n1⟩ := inv_new (o := initCommon (iterOptions o)) hgo
  obtain ⟨K, i2, s2, m2, n2⟩ := inv_new (o := initCommon (iterOptions o)) hgn
  have hL := stream hopt _ _ L (Nat.le_refl _) i1
  have hK := stream hopt _ _ K (Nat.le_refl _) i2
  obtain ⟨N, hN⟩ := fromIterators_eq (o := o) hL hK (by cases old <;> rfl) (by cases new <;> rfl)
  have ht' : (applyOptions o).opts.includeTypechangeTrees = false := ht
  obtain ⟨D, d1, d2, d3, _⟩ := diffMerge_spec ht' _ (wanted (initCommon (iterOptions o)) L) (wanted (initCommon (iterOptions o)) K) [] (Nat.le_refl _)
    (s1.sublist List.filter_sublist) (s2.sublist List.filter_sublist)
  refine ⟨N, D, fun fuel hf => ?_, d3, ?_⟩
  · have := hN fuel hf
    rw [d1, List.nil_append] at this
    exact this
  · intro p f g hf hg
    have hA := lookup_wanted (iter_opts o).1 (iter_opts o).2 hgo m1 n1 hf
    have hB := lookup_wanted (iter_opts o).1 (iter_opts o).2 hgn m2 n2 hg
    constructor
    · intro hh; rw [d2, hA.1 hh, hB.1 hh]
    · intro hh; rw [d2, hA.2 hh, hB.2 hh]; rfl

/-! ## Pathspecs -/

theorem strip_self {q : Bytes} (h1 : q.getLast? ≠ some c!" ") (h2 : q.getLast? ≠ some c!"\t") : Ignore.Spec.stripBlanks q = q := by
  unfold Ignore.Spec.stripBlanks
  cases hn : q.length with
  | zero => rfl
  | succ n =>
    unfold Ignore.Spec.stripBlanks.go
    cases hl : q.getLast? with
    | none => rfl
    | some c =>
      simp only
      rw [if_neg]
      rintro ⟨h | h, _⟩
      · exact h1 (by rw [hl, h])
      · exact h2 (by rw [hl, h])

theorem unescape_self {q : Bytes} (h : ∀ c ∈ q, c ≠ c!"\\") : Ignore.Spec.unescape q = q := by
  induction q with
  | nil => rfl
  | cons c q ih =>
    have hc := h c List.mem_cons_self
    cases q with
    | nil => simp [Ignore.Spec.unescape, hc]
    | cons d q =>
      rw [Ignore.Spec.unescape, if_neg hc, ih (fun x hx => h x (List.mem_cons_of_mem _ hx))]

theorem unescape_self' {q : Bytes} (h : ∀ c ∈ q, c ≠ c!"\\") : unescape q = q := by
  induction q with
  | nil => rfl
  | cons c q ih =>
    have hc := h c List.mem_cons_self
    cases q with
    | nil => simp [unescape]
    | cons d q =>
      rw [unescape, if_neg hc, ih (fun x hx => h x (List.mem_cons_of_mem _ hx))]

theorem hasWild_any {q : Bytes} (h : ∀ c ∈ q, c ≠ c!"\\") : Ignore.Spec.hasWild q = q.any Ignore.isWildcard := by
  rw [← Ignore.wildFrom_eq]
  induction q with
  | nil => rfl
  | cons c q ih =>
    have hc := h c List.mem_cons_self
    rw [Ignore.wildFrom, if_neg (fun hh => hc hh.1), ih (fun x hx => h x (List.mem_cons_of_mem _ hx))]
    simp

theorem last_mem {q : Bytes} {c : UInt8} (h : q.getLast? = some c) : c ∈ q := List.mem_of_getLast? h

theorem parse_plain {q : Bytes} (h : Plain q) : parseSpec q = some ⟨q, decide (q = b!"*"), false, decide (q ≠ b!"*") && q.any Ignore.isWildcard⟩ := by
  obtain ⟨h1, h2, h3, h4, h5, h6, h7, h8⟩ := h
  by_cases hs : q = b!"*"
  · subst hs; decide
  · have hl : ∀ c ∈ q, Ignore.LineByte c := by
      intro c hc
      have := (h8 c hc).2
      refine ⟨?_, ?_, ?_⟩ <;> (rintro rfl; exact this (by decide))
    have hlast : ∀ c, 9 ≤ c ∧ c ≤ 13 → q.getLast? ≠ some c := fun c hc e => (h8 c (last_mem e)).2 hc
    have hrl : Ignore.Spec.readLine false none q = some ⟨q, none, false, false, decide (1 ≤ q.count c!"/"), q.any Ignore.isWildcard, false⟩ := by
      unfold Ignore.Spec.readLine
      rw [if_neg (by simp [h1, h4])]
      have hcr : Ignore.Spec.dropCr q = q := by
        unfold Ignore.Spec.dropCr
        rw [if_neg (hlast _ (by decide))]
      simp only [h3, decide_false, if_false, h5, hcr, Bool.false_eq_true, strip_self h7 (hlast _ (by decide)), h6, h1, unescape_self (fun c hc => (h8 c hc).1),
        hasWild_any (fun c hc => (h8 c hc).1)]
    have := Ignore.parse_line false none q [] hl (by simp) (Or.inr rfl) h1 (by simp [hs, h2])
    rw [List.append_nil, hrl] at this
    rcases this with ⟨r, e1, e2⟩ | ⟨e1, _⟩
    · cases e1
      unfold parseSpec
      rw [e2]
      simp [hs, h2]
    · cases e1

theorem any_wild {q : Bytes} : q.any Ignore.isWildcard = false ↔ ∀ c ∈ q, c ∉ b!"*?[" := by
  rw [List.any_eq_false]
  constructor
  · intro h c hc
    have := h c hc
    rw [Ignore.isWildcard_eq] at this
    simpa using this
  · intro h c hc
    have := h c hc
    rw [Ignore.isWildcard_eq]
    simpa using this

theorem lit_more {q t : Bytes} (h : ∀ c ∈ q, Wildmatch.isGlobSpecial c = false) (ht : t ≠ []) (first : Bool) :
    Wildmatch.dowild ⟨false, false⟩ first q (q ++ t) = .noMatch := by
  induction q generalizing first with
  | nil => rw [List.nil_append, Wildmatch.dowild_nil, if_neg ht]
  | cons c q ih =>
    rw [List.cons_append, Wildmatch.dowild_lit _ _ _ _ _ (h c List.mem_cons_self)]
    rw [if_neg (by simp)]
    exact ih (fun x hx => h x (List.mem_cons_of_mem _ hx)) _

theorem slash_prefix {q p : Bytes} : (p.take q.length = q ∧ p.getD q.length 0 = c!"/") ↔ (q ++ b!"/") <+: p := by
  constructor
  · rintro ⟨h1, h2⟩
    have hp : p = q ++ p.drop q.length := by
      have := (List.take_append_drop q.length p).symm
      rwa [h1] at this
    refine ⟨(p.drop q.length).tail, ?_⟩
    rw [hp, getD_append_len] at h2
    rw [hp]
    cases hd : p.drop q.length with
    | nil => rw [hd] at h2; simp at h2
    | cons c t =>
      rw [hd] at h2
      simp at h2
      simp [h2]
  · rintro ⟨t, rfl⟩
    rw [List.append_assoc, getD_append_len]
    simp

/-- a plain pathspec: what it matches -/
theorem matchOne_plain {q p : Bytes} (h : Plain q) (h0 : (0 : UInt8) ∉ p) {m : PSpec} (hm : parseSpec q = some m) :
    m.negative = false ∧ (specMatches false m p = true ↔ Selects q p) := by
  rw [parse_plain h] at hm
  cases hm
  refine ⟨rfl, ?_⟩
  by_cases hs : q = b!"*"
  · subst hs
    simp only [specMatches, decide_true, if_true, true_iff]
    refine Or.inr (Or.inl ?_)
    have := (Wildmatch.C32_one_star (p := []) (q := []) (by simp) (by simp) p).mpr ⟨p, by simp⟩
    exact (Wildmatch.C32_wildmatch _ _ _).mp this
  · have hw : Wildmatch.wildmatch ⟨false, false⟩ q p = .ok ↔ Wildmatch.Spec.Matches ⟨false, false⟩ q p := Wildmatch.C32_wildmatch ⟨false, false⟩ q p
    unfold specMatches Selects
    simp only [hs, decide_false, Bool.false_eq_true, if_false, ne_eq, not_false_eq_true, decide_true, Bool.true_and]
    by_cases he : q = p
    · subst he; simp
    · rw [if_neg he]
      by_cases hw' : Wildmatch.wildmatch ⟨false, false⟩ q p = .ok
      · rw [if_pos hw']
        simp [hw.mp hw']
      · rw [if_neg hw']
        have hnm : ¬ Wildmatch.Spec.Matches ⟨false, false⟩ q p := fun h => hw' (hw.mpr h)
        simp only [hnm, false_or, decide_eq_true_eq]
        rw [any_wild, slash_prefix]
        constructor
        · exact fun h => Or.inr h.2
        · rintro (e | ⟨h1, h2⟩)
          · exact absurd e.symm he
          refine ⟨?_, h1, h2⟩
          obtain ⟨t, rfl⟩ := h2
          rw [List.append_assoc]
          refine lit_more ?_ (by simp) _
          intro c hc
          have a := h1 c hc
          have b := (h.2.2.2.2.2.2.2 c hc).1
          simp only [List.mem_cons, List.not_mem_nil, or_false, not_or] at a
          simp [Wildmatch.isGlobSpecial, a, b]

theorem matchAt_pos {ps : List PSpec} {p : Bytes} (h : ∀ m ∈ ps, m.negative = false) : 0 < matchAt false p ps ↔ ∃ m ∈ ps, specMatches false m p = true := by
  induction ps with
  | nil => simp [matchAt]
  | cons m ps ih =>
    have hm := h m List.mem_cons_self
    have ih := ih (fun x hx => h x (List.mem_cons_of_mem _ hx))
    have he : matchOne false m p = if specMatches false m p then 1 else -1 := by
      unfold matchOne
      simp [hm]
    unfold matchAt
    rw [he]
    cases hs : specMatches false m p with
    | true => simp [hs]
    | false => simp [hs, ih]

theorem filterMap_mem {ps : List Bytes} {m : PSpec} : m ∈ ps.filterMap parseSpec ↔ ∃ q ∈ ps, parseSpec q = some m := by
  rw [List.mem_filterMap]

/-- what a list of plain pathspecs matches -/
theorem pathspec_plain {ps : List Bytes} {p : Bytes} (hne : ps ≠ []) (h : ∀ q ∈ ps, Plain q) (h0 : (0 : UInt8) ∉ p) :
    pathspecMatch false (vinit ps) p = true ↔ ∃ q ∈ ps, Selects q p := by
  obtain ⟨q0, ps', rfl⟩ := List.exists_cons_of_ne_nil hne
  have hq0 := h q0 List.mem_cons_self
  have hv : vinit (q0 :: ps') = (q0 :: ps').filterMap parseSpec := by
    unfold vinit
    rw [if_neg]
    simp [hq0.1]
  have hnn : (q0 :: ps').filterMap parseSpec ≠ [] := by
    intro e
    have : (⟨q0, decide (q0 = b!"*"), false, decide (q0 ≠ b!"*") && q0.any Ignore.isWildcard⟩ : PSpec) ∈ (q0 :: ps').filterMap parseSpec :=
      filterMap_mem.mpr ⟨q0, List.mem_cons_self, parse_plain hq0⟩
    rw [e] at this; cases this
  unfold pathspecMatch
  rw [hv]
  have : ((q0 :: ps').filterMap parseSpec).isEmpty = false := by
    rw [List.isEmpty_eq_false_iff]; exact hnn
  rw [this, Bool.false_or, decide_eq_true_eq, matchAt_pos]
  · constructor
    · rintro ⟨m, hm, hs⟩
      obtain ⟨q, hq, e⟩ := filterMap_mem.mp hm
      exact ⟨q, hq, (matchOne_plain (h q hq) h0 e).2.mp hs⟩
    · rintro ⟨q, hq, hs⟩
      have e := parse_plain (h q hq)
      exact ⟨_, filterMap_mem.mpr ⟨q, hq, e⟩, (matchOne_plain (h q hq) h0 e).2.mpr hs⟩
  · intro m hm
    obtain ⟨q, hq, e⟩ := filterMap_mem.mp hm
    exact (matchOne_plain (h q hq) h0 e).1

/-! ## The prefix -/

theorem common_left {a b : Bytes} : common a b <+: a := by
  induction a generalizing b with
  | nil => unfold common; exact List.nil_prefix
  | cons c a ih =>
    cases b with
    | nil => unfold common; exact List.nil_prefix
    | cons d b =>
      unfold common
      split
      · exact (List.cons_prefix_cons).mpr ⟨rfl, ih⟩
      · exact List.nil_prefix

theorem common_right {a b : Bytes} : common a b <+: b := by
  induction a generalizing b with
  | nil => unfold common; exact List.nil_prefix
  | cons c a ih =>
    cases b with
    | nil => unfold common; exact List.nil_prefix
    | cons d b =>
      unfold common
      split
      · exact (List.cons_prefix_cons).mpr ⟨by assumption, ih⟩
      · exact List.nil_prefix

theorem foldl_common {ss : List Bytes} : ∀ {s : Bytes}, ss.foldl common s <+: s ∧ ∀ q ∈ ss, ss.foldl common s <+: q := by
  induction ss with
  | nil => intro s; exact ⟨List.prefix_refl _, by simp⟩
  | cons t ss ih =>
    intro s
    rw [List.foldl_cons]
    have := @ih (common s t)
    refine ⟨this.1.trans common_left, ?_⟩
    intro q hq
    rcases List.mem_cons.mp hq with rfl | hq
    · exact this.1.trans common_right
    · exact this.2 q hq

theorem commonPrefix_prefix {ps : List Bytes} {q : Bytes} (h : q ∈ ps) : commonPrefix ps <+: q := by
  cases ps with
  | nil => cases h
  | cons s ss =>
    unfold commonPrefix
    rcases List.mem_cons.mp h with rfl | h
    · exact foldl_common.1
    · exact foldl_common.2 q h

theorem beforeWild_prefix {a : Bytes} : ∀ {prev}, beforeWild prev a <+: a := by
  induction a with
  | nil => intro prev; exact List.prefix_refl _
  | cons c a ih =>
    intro prev
    unfold beforeWild
    split
    · exact List.nil_prefix
    · exact (List.cons_prefix_cons).mpr ⟨rfl, ih⟩

theorem beforeWild_plain {a : Bytes} (h : ∀ c ∈ a, c ≠ c!"\\") : ∀ {prev : Option UInt8}, prev ≠ some c!"\\" → ∀ c ∈ beforeWild prev a, Ignore.isWildcard c = false := by
  induction a with
  | nil => intro prev _ c hc; cases hc
  | cons d a ih =>
    intro prev hp c hc
    unfold beforeWild at hc
    split at hc
    · cases hc
    · rename_i hn
      rcases List.mem_cons.mp hc with rfl | hc
      · cases hw : Ignore.isWildcard c with
        | false => rfl
        | true => exact absurd ⟨hw, hp⟩ hn
      · exact ih (fun x hx => h x (List.mem_cons_of_mem _ hx)) (by simpa using h d List.mem_cons_self) c hc

/-- a literal beginning of a pattern is a beginning of what it matches -/
theorem selects_prefix {a r p : Bytes} (ha : ∀ c ∈ a, c ≠ c!"\\" ∧ Ignore.isWildcard c = false) (h : Selects (a ++ r) p) : a <+: p := by
  rcases h with rfl | h | ⟨_, h⟩
  · exact List.prefix_append _ _
  · have hs : ∀ c ∈ a, Wildmatch.isGlobSpecial c = false := by
      intro c hc
      have ⟨h1, h2⟩ := ha c hc
      rw [Ignore.isWildcard_eq] at h2
      simp at h2
      simp [Wildmatch.isGlobSpecial, h1, h2]
    obtain ⟨b, s, rfl, e, _⟩ := (Wildmatch.lit_matches hs ⟨false, false⟩ true r p (.inr rfl)).mp h
    have hid : ∀ l : Bytes, l.map (Wildmatch.Spec.seen ⟨false, false⟩) = l := by
      intro l
      have : Wildmatch.Spec.seen ⟨false, false⟩ = id := by funext x; simp [Wildmatch.Spec.seen]
      rw [this, List.map_id]
    rw [hid, hid] at e
    subst e
    exact List.prefix_append _ _
  · exact (((List.prefix_append a r).trans (List.prefix_append _ _))).trans h

theorem selects_in {ps : List Bytes} {q p s : Bytes} (h : ∀ q ∈ ps, Plain q) (hq : q ∈ ps) (hs : Selects q p) (hp : pathspecPrefix ps = some s) : s <+: p ∧ s ≠ [] := by
  have hc := commonPrefix_prefix hq
  have hb : beforeWild none (commonPrefix ps) <+: q := beforeWild_prefix.trans hc
  obtain ⟨r, hr⟩ := hb
  have hall : ∀ c ∈ commonPrefix ps, c ≠ c!"\\" := fun c hm => ((h q hq).2.2.2.2.2.2.2 c (hc.subset hm)).1
  have hall' : ∀ c ∈ beforeWild none (commonPrefix ps), c ≠ c!"\\" ∧ Ignore.isWildcard c = false :=
    fun c hm => ⟨hall c (beforeWild_prefix.subset hm), beforeWild_plain hall (by simp) c hm⟩
  unfold pathspecPrefix at hp
  simp only at hp
  split at hp
  · cases hp
  · rename_i hne
    rw [unescape_self' (fun c hm => (hall' c hm).1)] at hp
    cases hp
    rw [← hr] at hs
    exact ⟨selects_prefix hall' hs, hne⟩

end Verif.TreeDiff
