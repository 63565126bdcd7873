import Verif.Merge.Lemmas2
/-! # One path -/
namespace Verif.Merge
open Verif.Index Spec Verif.Index.Spec

def toItem (e : Entry) : Item := (e.mode, e.id)

theorem itemAt_eq (l : List Entry) (p : Bytes) : itemAt l p = (entryAt l p).map toItem := rfl

/-- what a tree may hold at `p` -/
def Okay (p : Bytes) (x : Option Entry) : Prop := ∀ e, x = some e → e.path = p ∧ e.path ≠ [] ∧ e.mode ≠ 0 ∧ isDir e.mode = false

theorem okay_at {l : List Entry} (h : IsTree l) (p : Bytes) : Okay p (entryAt l p) := by
  intro e he
  obtain ⟨h1, h2⟩ := entryAt_mem he
  have := h.entry e h1
  refine ⟨h2, this.2.1, this.2.2.1, ?_⟩
  simpa [isDir] using this.2.2.2

theorem existing_some {p : Bytes} {e : Entry} (h : Okay p (some e)) : existing ((some e).getD zeroEntry) = true := by
  simpa [existing] using (h e rfl).2.2.1

theorem existing_getD {p : Bytes} {x : Option Entry} (h : Okay p x) : existing (x.getD zeroEntry) = x.isSome := by
  cases x with
  | none => rfl
  | some e => exact existing_some h

theorem side_getD {p : Bytes} {x : Option Entry} (h : Okay p x) : side (x.getD zeroEntry) = x := by
  unfold side
  rw [existing_getD h]
  cases x <;> rfl

theorem differs_iff {p : Bytes} {x y : Entry} (hx : Okay p (some x)) (hy : Okay p (some y)) : entryDiffers x y = true ↔ toItem x ≠ toItem y := by
  have h1 := hx x rfl
  have h2 := hy y rfl
  unfold entryDiffers toItem
  rw [if_neg h1.2.1]
  have : bcmp x.path y.path = 0 := by rw [h1.1, h2.1]; exact bcmp_self p
  simp only [this, ne_eq, not_true_eq_false, or_false, decide_eq_true_eq, Prod.mk.injEq]
  constructor
  · rintro (h | h) ⟨g1, g2⟩
    · exact h g1
    · exact h g2
  · intro h
    by_cases hm : x.mode = y.mode
    · exact .inr (fun hi => h ⟨hm, hi⟩)
    · exact .inl hm

theorem modified_iff {p : Bytes} {a o t : Option Entry} (ha : Okay p a) (ho : Okay p o) (ht : Okay p t) (hs : a.isSome ∨ o.isSome ∨ t.isSome) :
    isModified a o t = true ↔ ¬ (a.map toItem = o.map toItem ∧ a.map toItem = t.map toItem) := by
  cases a with
  | none => cases o <;> cases t <;> simp_all [isModified]
  | some a =>
    cases o with
    | none => simp [isModified]
    | some o =>
      cases t with
      | none => simp [isModified]
      | some t =>
        simp only [isModified, Bool.or_eq_true, differs_iff ha ho, differs_iff ha ht, Option.map_some, Option.some.injEq]
        constructor
        · rintro (h | h) ⟨g1, g2⟩
          · exact h g1
          · exact h g2
        · intro h
          by_cases hm : toItem a = toItem o
          · exact .inr (fun hi => h ⟨hm, hi⟩)
          · exact .inl hm

theorem isLnk_iff {m : Nat} : isLnk m = true ↔ Link m := by simp [isLnk, Link]
theorem isGitlink_iff {m : Nat} : isGitlink m = true ↔ Submodule m := by simp [isGitlink, Submodule]

theorem lnk_beq {m n : Nat} : (isLnk m != isLnk n) = true ↔ ¬ (Link m ↔ Link n) := by
  rw [← isLnk_iff, ← isLnk_iff]
  cases isLnk m <;> cases isLnk n <;> simp

theorem unmodified_iff {p : Bytes} {a o : Option Entry} (ha : Okay p a) (ho : Okay p o) : deltaType a o = .unmodified ↔ o.map toItem = a.map toItem := by
  cases a with
  | none => cases o <;> simp [deltaType]
  | some a =>
    cases o with
    | none => simp [deltaType]
    | some o =>
      have h1 := (ha a rfl).2.2.2
      have h2 := (ho o rfl).2.2.2
      simp only [deltaType, h1, h2, Option.map_some, Option.some.injEq]
      rw [if_neg (by simp)]
      split
      · rename_i hl
        simp only [reduceCtorEq, false_iff]
        intro he
        rw [lnk_beq] at hl
        apply hl
        have : o.mode = a.mode := congrArg Prod.fst he
        rw [this]
      · split
        · rename_i hne
          simp only [reduceCtorEq, false_iff, toItem, Prod.mk.injEq]
          rintro ⟨g1, g2⟩
          rcases hne with h | h
          · exact h g2.symm
          · exact h g1.symm
        · rename_i hne
          simp only [true_iff, toItem, Prod.mk.injEq]
          constructor
          · by_contra hc; exact hne (.inr (fun h => hc h.symm))
          · by_contra hc; exact hne (.inl (fun h => hc h.symm))

theorem addedOrModified_iff {p : Bytes} {a o : Option Entry} (ha : Okay p a) (ho : Okay p o) :
    (deltaType a o = .added ∨ deltaType a o = .modified) ↔ AddedOrModified (a.map toItem) (o.map toItem) := by
  cases a with
  | none => cases o <;> simp [deltaType, AddedOrModified]
  | some a =>
    cases o with
    | none => simp [deltaType, AddedOrModified]
    | some o =>
      have h1 := (ha a rfl).2.2.2
      have h2 := (ho o rfl).2.2.2
      simp only [deltaType, h1, h2, Option.map_some, AddedOrModified]
      rw [if_neg (by simp)]
      split
      · rename_i hl
        rw [lnk_beq] at hl
        simp only [reduceCtorEq, or_self, false_iff]
        exact fun h => hl h.2
      · rename_i hl
        have hl : (Link a.mode ↔ Link o.mode) := by
          rw [lnk_beq] at hl
          by_contra hc; exact hl hc
        split
        · rename_i hne
          simp only [or_true, true_iff, toItem, ne_eq, Prod.mk.injEq]
          refine ⟨?_, hl⟩
          rintro ⟨g1, g2⟩
          rcases hne with h | h
          · exact h g2
          · exact h g1
        · rename_i hne
          simp only [reduceCtorEq, or_self, false_iff, toItem, ne_eq, Prod.mk.injEq]
          rintro ⟨h, -⟩
          apply h
          constructor
          · by_contra hc; exact hne (.inr hc)
          · by_contra hc; exact hne (.inl hc)

theorem diffPath_eq {p : Bytes} {a o t : Option Entry} (ha : Okay p a) (ho : Okay p o) (ht : Okay p t) (hs : a.isSome ∨ o.isSome ∨ t.isSome) :
    diffPath (fromEntries a o t) = p := by
  unfold diffPath fromEntries
  simp only [existing_getD ha, existing_getD ho]
  cases a with
  | some a => exact (ha a rfl).1
  | none =>
    cases o with
    | some o => exact (ho o rfl).1
    | none =>
      cases t with
      | some t => exact (ht t rfl).1
      | none => simp at hs

theorem touched_iff {p : Bytes} {a o t : Option Entry} (ha : Okay p a) (ho : Okay p o) (ht : Okay p t) :
    anyAddedOrModified (fromEntries a o t) = true ↔ AddedOrModified (a.map toItem) (o.map toItem) ∨ AddedOrModified (a.map toItem) (t.map toItem) := by
  rw [← addedOrModified_iff ha ho, ← addedOrModified_iff ha ht]
  unfold anyAddedOrModified fromEntries
  rw [decide_eq_true_iff, or_assoc]

theorem kind_ne (a o t : Option Entry) : (fromEntries a o t).kind ≠ .directoryFile := by
  simp only [fromEntries, detectType]
  repeat' split
  all_goals simp

/-! ## Resolution -/

/-- resolution looks at the kind only for the directory/file mark -/
theorem resolve_kind (drv : Driver) (c c' : Diff) (h : strip c = strip c') : resolve drv c = resolve drv c' := by
  have h1 : c' = { c with kind := c'.kind } := by
    have := congrArg Prod.fst h
    simp only [strip] at this
    cases c; cases c'
    simp only [Diff.mk.injEq, true_and] at this ⊢
    obtain ⟨rfl, rfl, rfl, rfl, rfl⟩ := this
    simp
  have h2 : (c.kind = .directoryFile) ↔ (c'.kind = .directoryFile) := by
    have := congrArg Prod.snd h
    simpa [strip] using this
  generalize c'.kind = k at h1 h2
  subst h1
  unfold resolve resolveTrivial trivialResult resolveOneRemoved resolveContents canResolveContents
  by_cases hk : c.kind = .directoryFile
  · have hk' := h2.mp hk
    simp only [hk, hk', if_true]
  · have hk' : ¬ k = .directoryFile := fun h => hk (h2.mpr h)
    simp only [if_neg hk, if_neg hk']

theorem resolve_df (drv : Driver) (c : Diff) (h : c.kind = .directoryFile) : resolve drv c = .ok .unresolved := by
  unfold resolve resolveTrivial trivialResult resolveOneRemoved resolveContents canResolveContents
  simp only [h, if_true]
  split
  · rename_i e he; simp at he
  · split
    · rename_i h; cases h
    · simp

theorem mergeable_iff {p : Bytes} {a o t : Option Entry} (ha : Okay p a) (ho : Okay p o) (ht : Okay p t) (k : Kind) (hk : k ≠ .directoryFile) :
    canResolveContents { fromEntries a o t with kind := k } = true ↔ Mergeable (a.map toItem) (o.map toItem) (t.map toItem) := by
  unfold canResolveContents fromEntries
  simp only [existing_getD ho, existing_getD ht]
  cases o with
  | none => simp [Mergeable]
  | some o =>
    cases t with
    | none => simp [Mergeable]
    | some t =>
      simp only [Option.isSome_some, Bool.not_true, Bool.or_self, Bool.false_eq_true, if_false, if_neg hk, Option.getD_some, Option.map_some, Mergeable]
      cases a with
      | none =>
        have z1 : isGitlink zeroEntry.mode = false := by decide
        have z2 : ¬ Link zeroEntry.mode := by decide
        simp only [Option.getD_none, z1, Bool.false_or, Option.map_none, Bool.or_eq_true, isGitlink_iff, lnk_beq, z2]
        by_cases g1 : Submodule o.mode <;> by_cases g2 : Submodule t.mode <;> by_cases g3 : Link o.mode <;> by_cases g4 : Link t.mode <;>
          simp [g1, g2, g3, g4, toItem]
      | some a =>
        simp only [Option.getD_some, Option.map_some, Bool.or_eq_true, isGitlink_iff, lnk_beq]
        by_cases g1 : Submodule o.mode <;> by_cases g2 : Submodule t.mode <;> by_cases g5 : Submodule a.mode <;>
          by_cases g3 : Link o.mode <;> by_cases g4 : Link t.mode <;> by_cases g6 : Link a.mode <;>
          simp [g1, g2, g3, g4, g5, g6, toItem]

/-- the resolution of one difference, by the rule -/
theorem resolve_rule (drv : Driver) {p : Bytes} {a o t : Option Entry} (ha : Okay p a) (ho : Okay p o) (ht : Okay p t) (k : Kind) (hk : k ≠ .directoryFile)
    (hch : ¬ (a.map toItem = o.map toItem ∧ a.map toItem = t.map toItem)) :
    (∀ x, rule (a.map toItem) (o.map toItem) (t.map toItem) = .take x → ∃ e : Option Entry, resolve drv { fromEntries a o t with kind := k } = .ok (.resolved e) ∧
      e.map toItem = x ∧ (e = o ∨ e = t)) ∧
    (rule (a.map toItem) (o.map toItem) (t.map toItem) = .conflict → resolve drv { fromEntries a o t with kind := k } = .ok .unresolved) ∧
    (rule (a.map toItem) (o.map toItem) (t.map toItem) = .contents → ∃ eo et, o = some eo ∧ t = some et ∧
      resolve drv { fromEntries a o t with kind := k } = (match drv a eo et with
        | .ok e => .ok (.resolved (some e))
        | .err x => if x = EMERGECONFLICT then .ok .unresolved else .err x
        | .ub => .ub)) := by
  have hou := unmodified_iff ha ho
  have htu := unmodified_iff ha ht
  have hdiff : ∀ x y, o = some x → t = some y → (entryDiffers x y = true ↔ o.map toItem ≠ t.map toItem) := by
    rintro x y rfl rfl
    rw [differs_iff ho ht]
    simp
  have htriv : resolveTrivial { fromEntries a o t with kind := k } =
      (if o.map toItem = t.map toItem then o
       else if o.map toItem = a.map toItem then t
       else if t.map toItem = a.map toItem then o else none) := by
    have e1 := existing_getD ho
    have e2 := existing_getD ht
    by_cases c1 : o.map toItem = a.map toItem
    · have s1 : decide (deltaType a o ≠ .unmodified) = false := by simpa using hou.mpr c1
      by_cases c2 : t.map toItem = a.map toItem
      · exact absurd ⟨c1.symm, c2.symm⟩ hch
      · have s2 : decide (deltaType a t ≠ .unmodified) = true := by simpa using (fun h => c2 (htu.mp h))
        have c3 : ¬ o.map toItem = t.map toItem := fun h => c2 (by rw [← h, c1])
        rw [if_neg c3, if_pos c1]
        unfold resolveTrivial trivialResult fromEntries
        simp only [s1, s2, e1, e2, if_neg hk]
        cases t with
        | none =>
          cases o <;> simp
        | some y =>
          cases o with
          | none => simp [Option.filter, show existing y = true from e2]
          | some x => simp [Option.filter, show existing y = true from e2]
    · have s1 : decide (deltaType a o ≠ .unmodified) = true := by simpa using (fun h => c1 (hou.mp h))
      by_cases c2 : t.map toItem = a.map toItem
      · have s2 : decide (deltaType a t ≠ .unmodified) = false := by simpa using htu.mpr c2
        have c3 : ¬ o.map toItem = t.map toItem := fun h => c1 (by rw [h, c2])
        rw [if_neg c3, if_neg c1, if_pos c2]
        unfold resolveTrivial trivialResult fromEntries
        simp only [s1, s2, e1, e2, if_neg hk]
        cases o with
        | none => cases t <;> simp
        | some x => simp [Option.filter, show existing x = true from e1]
      · have s2 : decide (deltaType a t ≠ .unmodified) = true := by simpa using (fun h => c2 (htu.mp h))
        rw [if_neg c1, if_neg c2]
        unfold resolveTrivial trivialResult fromEntries
        simp only [s1, s2, e1, e2, if_neg hk]
        cases o with
        | none => cases t <;> simp
        | some x =>
          cases t with
          | none =>
            have : entryDiffers x zeroEntry = true := by
              have := ho x rfl
              unfold entryDiffers
              rw [if_neg this.2.1]
              simp [zeroEntry, this.2.2.1]
            simp [this]
          | some y =>
            have := hdiff x y rfl rfl
            by_cases c3 : (some x).map toItem = (some y).map toItem
            · have h0 : entryDiffers x y = false := by
                rw [Bool.eq_false_iff]; intro h; exact this.mp h c3
              rw [if_pos c3]
              simp [h0, Option.filter, show existing x = true from e1]
            · have h0 : entryDiffers x y = true := this.mpr c3
              rw [if_neg c3]
              simp [h0]
  have hrem : resolveOneRemoved { fromEntries a o t with kind := k } = true ↔
      (o = none ∧ t = none) ∨ (o = none ∧ t.map toItem = a.map toItem) ∨ (t = none ∧ o.map toItem = a.map toItem) := by
    have e1 := existing_getD ho
    have e2 := existing_getD ht
    unfold resolveOneRemoved fromEntries
    simp only [if_neg hk, e1, e2, Bool.or_eq_true, Bool.and_eq_true, decide_eq_true_eq, ne_eq, Bool.not_eq_true', Option.isSome_eq_false_iff, Option.isNone_iff_eq_none,
      decide_eq_false_iff_not, not_not, hou, htu, Bool.not_not]
    constructor
    · rintro ((⟨⟨g1, g2⟩, g3⟩ | ⟨g1, g2⟩) | ⟨g1, g2⟩)
      · exact .inl ⟨g2, g3⟩
      · exact .inr (.inl ⟨g1, g2⟩)
      · exact .inr (.inr ⟨g2, g1⟩)
    · rintro (⟨g1, g2⟩ | ⟨g1, g2⟩ | ⟨g1, g2⟩)
      · refine .inl (.inl ⟨⟨?_, g1⟩, g2⟩)
        intro h
        apply hch
        rw [g1] at h
        rw [g1, g2]
        exact ⟨h.symm, h.symm⟩
      · exact .inl (.inr ⟨g1, g2⟩)
      · exact .inr ⟨g2, g1⟩
  have hres : resolve drv { fromEntries a o t with kind := k } = (match resolveTrivial { fromEntries a o t with kind := k } with
      | some e => .ok (.resolved (some e))
      | none => if resolveOneRemoved { fromEntries a o t with kind := k } then .ok (.resolved none) else resolveContents drv { fromEntries a o t with kind := k }) := rfl
  rw [hres, htriv]
  unfold rule
  by_cases c3 : o.map toItem = t.map toItem
  · simp only [if_pos c3]
    refine ⟨?_, fun h => (by cases h), fun h => (by cases h)⟩
    intro x hx
    cases hx
    cases o with
    | some x => exact ⟨some x, rfl, rfl, .inl rfl⟩
    | none =>
      have ht0 : t = none := by cases t with | none => rfl | some y => cases c3
      refine ⟨none, ?_, rfl, .inl rfl⟩
      simp only
      rw [if_pos (hrem.mpr (.inl ⟨rfl, ht0⟩))]
  · simp only [if_neg c3]
    by_cases c1 : o.map toItem = a.map toItem
    · simp only [if_pos c1]
      refine ⟨?_, fun h => (by cases h), fun h => (by cases h)⟩
      intro x hx
      cases hx
      cases t with
      | some y => exact ⟨some y, rfl, rfl, .inr rfl⟩
      | none =>
        refine ⟨none, ?_, rfl, .inr rfl⟩
        simp only
        rw [if_pos (hrem.mpr (.inr (.inr ⟨rfl, c1⟩)))]
    · simp only [if_neg c1]
      by_cases c2 : t.map toItem = a.map toItem
      · simp only [if_pos c2]
        refine ⟨?_, fun h => (by cases h), fun h => (by cases h)⟩
        intro x hx
        cases hx
        cases o with
        | some y => exact ⟨some y, rfl, rfl, .inl rfl⟩
        | none =>
          refine ⟨none, ?_, rfl, .inl rfl⟩
          simp only
          rw [if_pos (hrem.mpr (.inr (.inl ⟨rfl, c2⟩)))]
      · simp only [if_neg c2]
        have hr : ¬ resolveOneRemoved { fromEntries a o t with kind := k } = true := by
          rw [hrem]
          rintro (⟨rfl, rfl⟩ | ⟨-, h⟩ | ⟨-, h⟩)
          · exact c3 rfl
          · exact c2 h
          · exact c1 h
        rw [if_neg hr]
        have hm := mergeable_iff ha ho ht k hk
        unfold resolveContents
        by_cases cm : Mergeable (a.map toItem) (o.map toItem) (t.map toItem)
        · simp only [if_pos cm]
          refine ⟨fun x h => (by cases h), fun h => (by cases h), fun _ => ?_⟩
          cases o with
          | none => simp [Mergeable] at cm
          | some eo =>
            cases t with
            | none => simp [Mergeable] at cm
            | some et =>
              refine ⟨eo, et, rfl, rfl, ?_⟩
              rw [if_neg (not_not_intro (hm.mpr cm))]
              have : side (fromEntries a (some eo) (some et)).ancestor = a := side_getD ha
              rw [this]
              rfl
        · simp only [if_neg cm]
          refine ⟨fun x h => (by cases h), fun _ => ?_, fun h => (by cases h)⟩
          rw [if_pos (fun h => cm (hm.mp h))]

end Verif.Merge
