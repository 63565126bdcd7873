import Verif.Mwindow.Lemmas6
/-! # How many files are open -/
namespace Verif.Mwindow
open Spec

theorem scanT_some : ∀ {ws : List Win} {best : Option Win} {found : Bool} {r : Win}, scan true false ws best found = some r →
    (∀ w ∈ ws, w.inuse = 0 ∧ w.lastUsed ≤ r.lastUsed) ∧ (∀ b, best = some b → b.lastUsed ≤ r.lastUsed) ∧
    (r ∈ ws ∨ best = some r) := by
  intro ws
  induction ws with
  | nil =>
    intro best found r h
    rw [scan] at h
    by_cases e : found = true
    · rw [if_pos e] at h
      exact ⟨fun w hw => absurd hw (List.not_mem_nil), fun b hb => by rw [h] at hb; rw [Option.some.inj hb]; exact Nat.le_refl _, Or.inr h⟩
    · rw [if_neg e] at h; exact nomatch h
  | cons w t ih =>
    intro best found r h
    rw [scan] at h
    by_cases e : w.inuse ≠ 0
    · rw [if_pos e, if_pos rfl] at h; exact nomatch h
    · rw [if_neg e] at h
      by_cases e' : better false best w = true
      · rw [if_pos e'] at h
        obtain ⟨h1, h2, h3⟩ := ih h
        have h4 := h2 w rfl
        refine ⟨fun v hv => ?_, fun b hb => ?_, ?_⟩
        · rcases List.mem_cons.1 hv with rfl | hv
          · exact ⟨by omega, h4⟩
          · exact h1 v hv
        · rw [hb] at e'
          simp only [better, signed, decide_eq_true_eq, gt_iff_lt] at e'
          simp at e'
          omega
        · rcases h3 with h3 | h3
          · exact Or.inl (List.mem_cons_of_mem _ h3)
          · rw [← Option.some.inj h3]; exact Or.inl List.mem_cons_self
      · rw [if_neg e'] at h
        obtain ⟨h1, h2, h3⟩ := ih h
        refine ⟨fun v hv => ?_, h2, h3.imp (List.mem_cons_of_mem _) id⟩
        rcases List.mem_cons.1 hv with rfl | hv
        · refine ⟨by omega, ?_⟩
          cases best with
          | none => exact absurd rfl e'
          | some b =>
            have := h2 b rfl
            simp [better, signed] at e'
            omega
        · exact h1 v hv

theorem scanT_all : ∀ {ws : List Win} {b : Win}, (∀ w ∈ ws, w.inuse = 0) → ∃ r, scan true false ws (some b) true = some r := by
  intro ws
  induction ws with
  | nil => intro b _; exact ⟨b, rfl⟩
  | cons w t ih =>
    intro b h
    rw [scan, if_neg (by simpa using h w List.mem_cons_self)]
    split
    · exact ih fun v hv => h v (List.mem_cons_of_mem _ hv)
    · exact ih fun v hv => h v (List.mem_cons_of_mem _ hv)

/-- a file with windows none of which is in use is found -/
theorem scanT_none {ws : List Win} (h : scan true false ws none false = none) : ws = [] ∨ ∃ w ∈ ws, w.inuse ≠ 0 := by
  cases ws with
  | nil => exact Or.inl rfl
  | cons w t =>
    right
    by_contra hn
    have hall : ∀ v ∈ w :: t, v.inuse = 0 := fun v hv => by
      by_contra e; exact hn ⟨v, hv, e⟩
    rw [scan, if_neg (by simpa using hall w List.mem_cons_self), if_pos (show better false none w = true from rfl)] at h
    obtain ⟨r, hr⟩ := scanT_all (ws := t) (b := w) fun v hv => hall v (List.mem_cons_of_mem _ hv)
    rw [hr] at h; exact nomatch h

theorem lruFileLoop_some {s : St} : ∀ {fs : List Nat} {best : Option (Nat × Win)} {f : Nat}, lruFileLoop s fs best = some f →
    ∃ w, (best = some (f, w) ∨ (f ∈ fs ∧ scan true false (s.windows f) none false = some w)) ∧
      (∀ g ∈ fs, ∀ m, scan true false (s.windows g) none false = some m → w.lastUsed ≤ m.lastUsed) ∧
      (∀ b, best = some b → w.lastUsed ≤ b.2.lastUsed) := by
  intro fs
  induction fs with
  | nil =>
    intro best f h
    rw [lruFileLoop] at h
    cases best with
    | none => exact nomatch h
    | some b =>
      have : b.1 = f := Option.some.inj h
      refine ⟨b.2, Or.inl (by rw [← this]), fun g hg => absurd hg (List.not_mem_nil), fun b' hb => ?_⟩
      rw [Option.some.inj hb]; exact Nat.le_refl _
  | cons g t ih =>
    intro best f h
    rw [lruFileLoop] at h
    cases e : scan true false (s.windows g) none false with
    | none =>
      rw [e] at h
      obtain ⟨w, h1, h2, h3⟩ := ih h
      refine ⟨w, h1.imp id (fun h => ⟨List.mem_cons_of_mem _ h.1, h.2⟩), fun k hk m hm => ?_, h3⟩
      rcases List.mem_cons.1 hk with rfl | hk
      · rw [e] at hm; exact nomatch hm
      · exact h2 k hk m hm
    | some m =>
      rw [e] at h
      dsimp only at h
      -- whichever is kept is not newer than either
      have key : ∀ b : Nat × Win, lruFileLoop s t (some b) = some f → b.2.lastUsed ≤ m.lastUsed →
          (∀ b', best = some b' → b.2.lastUsed ≤ b'.2.lastUsed) → (b = (g, m) ∨ best = some b) →
          ∃ w, (best = some (f, w) ∨ (f ∈ g :: t ∧ scan true false (s.windows f) none false = some w)) ∧
            (∀ k ∈ g :: t, ∀ m, scan true false (s.windows k) none false = some m → w.lastUsed ≤ m.lastUsed) ∧
            (∀ b, best = some b → w.lastUsed ≤ b.2.lastUsed) := by
        intro b hb hm hbest hor
        obtain ⟨w, h1, h2, h3⟩ := ih hb
        have h4 := h3 b rfl
        refine ⟨w, ?_, fun k hk m' hm' => ?_, fun b' hb' => Nat.le_trans h4 (hbest b' hb')⟩
        · rcases h1 with h1 | h1
          · have h1 := Option.some.inj h1
            rcases hor with h5 | h5
            · rw [h5] at h1
              have := Prod.mk.inj h1
              rw [← this.1, ← this.2]
              exact Or.inr ⟨List.mem_cons_self, e⟩
            · rw [h1] at h5; exact Or.inl h5
          · exact Or.inr ⟨List.mem_cons_of_mem _ h1.1, h1.2⟩
        · rcases List.mem_cons.1 hk with rfl | hk
          · rw [e] at hm'; rw [← Option.some.inj hm']; omega
          · exact h2 k hk m' hm'
      cases best with
      | none => exact key (g, m) h (Nat.le_refl _) (fun b' hb' => nomatch hb') (Or.inl rfl)
      | some b =>
        obtain ⟨b1, b2⟩ := b
        dsimp only at h
        by_cases e' : b2.lastUsed > m.lastUsed
        · rw [if_pos e'] at h
          exact key (g, m) h (Nat.le_refl _) (fun b' hb' => by rw [← Option.some.inj hb']; dsimp only; omega) (Or.inl rfl)
        · rw [if_neg e'] at h
          exact key (b1, b2) h (by dsimp only; omega) (fun b' hb' => by rw [← Option.some.inj hb']; exact Nat.le_refl _) (Or.inr rfl)

theorem lruFileLoop_best {s : St} : ∀ {fs : List Nat} {b : Nat × Win}, ∃ f, lruFileLoop s fs (some b) = some f := by
  intro fs
  induction fs with
  | nil => intro b; exact ⟨b.1, rfl⟩
  | cons g t ih =>
    intro b
    rw [lruFileLoop]
    cases scan true false (s.windows g) none false with
    | none => exact ih
    | some m =>
      obtain ⟨b1, b2⟩ := b
      dsimp only
      split
      · exact ih
      · exact ih

theorem lruFileLoop_none {s : St} : ∀ {fs : List Nat}, lruFileLoop s fs none = none → ∀ g ∈ fs, scan true false (s.windows g) none false = none := by
  intro fs
  induction fs with
  | nil => intro _ g hg; exact absurd hg (List.not_mem_nil)
  | cons k t ih =>
    intro h g hg
    rw [lruFileLoop] at h
    cases e : scan true false (s.windows k) none false with
    | none =>
      rw [e] at h
      rcases List.mem_cons.1 hg with rfl | hg
      · exact e
      · exact ih h g hg
    | some m =>
      rw [e] at h
      obtain ⟨f, hf⟩ := lruFileLoop_best (s := s) (fs := t) (b := (k, m))
      rw [show lruFileLoop s t (some (k, m)) = none from h] at hf; exact nomatch hf

/-- a file none of whose windows is in use loses them all -/
theorem freeLoop_all (f : Nat) : ∀ (n : Nat) {s : St}, s.wins.length ≤ n → (∀ w ∈ s.wins, w.file = f → w.inuse = 0) →
    ∀ w ∈ (freeLoop f n s).1.wins, w.file ≠ f := by
  intro n
  induction n with
  | zero =>
    intro s hn _ w hw
    change w ∈ s.wins at hw
    rw [List.length_eq_zero_iff.1 (show s.wins.length = 0 by omega)] at hw
    exact absurd hw (List.not_mem_nil)
  | succ n ih =>
    intro s hn hu w hw
    rw [freeLoop] at hw
    cases e : s.windows f with
    | nil =>
      rw [e] at hw
      intro hf
      have : w ∈ s.windows f := mem_windows.2 ⟨hw, hf⟩
      rw [e] at this; exact absurd this (List.not_mem_nil)
    | cons v t =>
      rw [e] at hw
      have hv : v ∈ s.wins ∧ v.file = f := mem_windows.1 (by rw [e]; exact List.mem_cons_self)
      dsimp only at hw
      rw [if_neg (by simpa using hu v hv.1 hv.2)] at hw
      have := unmap_shorter hv.1
      exact ih (by omega) (fun u hu' hf => hu u (mem_unmap.1 hu').1 hf) w hw

/-- a file that could be closed: it has windows, and none is in use -/
def Closable (s : St) (g : Nat) : Prop := (∃ v ∈ s.wins, v.file = g) ∧ ∀ v ∈ s.wins, v.file = g → v.inuse = 0

/-- what registering does to the windows: files are closed as a whole, when none of their windows is in use, and those that
could be closed and are not have been used later -/
structure Closed (s s' : St) : Prop where
  less : ∀ w ∈ s'.wins, w ∈ s.wins
  regs : ∀ g ∈ s'.reg, g ∈ s.reg
  whole : ∀ g, (∀ w ∈ s'.wins, w.file ≠ g) ∨ (∀ w ∈ s.wins, w.file = g → w ∈ s'.wins)
  unused : ∀ w ∈ s.wins, w ∉ s'.wins → ∀ v ∈ s.wins, v.file = w.file → v.inuse = 0
  cold : ∀ w ∈ s.wins, w ∉ s'.wins → ∀ g ∈ s'.reg, Closable s' g → ∃ v ∈ s'.wins, v.file = g ∧ w.lastUsed ≤ v.lastUsed

theorem Closed.rfl {s : St} : Closed s s :=
  ⟨fun _ h => h, fun _ h => h, fun _ => Or.inr fun _ h _ => h, fun _ h h' => absurd h h', fun _ h h' => absurd h h'⟩

theorem freeAll_closed {s : St} (h : Ok s) (hc : Counted s) {f : Nat} (hf : findLruFile s = some f) : f ∈ s.reg ∧ Closed s (freeAllLocked s f).1 := by
  unfold findLruFile at hf
  obtain ⟨m, h1, h2, _⟩ := lruFileLoop_some hf
  rcases h1 with h1 | ⟨hreg, hm⟩
  · exact nomatch h1
  obtain ⟨ha, _, _⟩ := scanT_some hm
  have hun : ∀ w ∈ s.wins, w.file = f → w.inuse = 0 ∧ w.lastUsed ≤ m.lastUsed := fun w hw hwf => ha w (mem_windows.2 ⟨hw, hwf⟩)
  have hk := freeAll_keeps h hc f
  have hall : ∀ w ∈ (freeAllLocked s f).1.wins, w.file ≠ f :=
    freeLoop_all f _ (Nat.le_refl _) (fun w hw hwf => (hun w hw hwf).1)
  have hgone : ∀ w ∈ s.wins, w ∉ (freeAllLocked s f).1.wins → w.file = f := fun w hw hn => by
    by_contra e; exact hn (hk.2.2 w hw e)
  refine ⟨hreg, fun w hw => hk.1.less.sub w hw, fun g hg => ?_, fun g => ?_, fun w hw hn v hv e => ?_, fun w hw hn g hg hcl => ?_⟩
  · rw [hk.2.1] at hg; exact List.mem_of_mem_erase hg
  · by_cases e : g = f
    · exact Or.inl (by rw [e]; exact hall)
    · exact Or.inr fun w hw e' => hk.2.2 w hw (by rw [e']; exact e)
  · rw [hgone w hw hn] at e
    exact (hun v hv e).1
  · have hwf := hgone w hw hn
    have hgs : g ∈ s.reg := by rw [hk.2.1] at hg; exact List.mem_of_mem_erase hg
    obtain ⟨⟨v0, hv0, hv0g⟩, hcl2⟩ := hcl
    have hgf : g ≠ f := by rw [← hv0g]; exact hall v0 hv0
    cases e : scan true false (s.windows g) none false with
    | none =>
      rcases scanT_none e with e | ⟨u, hu, hu'⟩
      · have : v0 ∈ s.windows g := mem_windows.2 ⟨hk.1.less.sub v0 hv0, hv0g⟩
        rw [e] at this; exact absurd this (List.not_mem_nil)
      · have hu2 := mem_windows.1 hu
        exact absurd (hcl2 u (hk.2.2 u hu2.1 (by rw [hu2.2]; exact hgf)) hu2.2) hu'
    | some r =>
      obtain ⟨_, _, hr⟩ := scanT_some e
      rcases hr with hr | hr
      · have hr2 := mem_windows.1 hr
        refine ⟨r, hk.2.2 r hr2.1 (by rw [hr2.2]; exact hgf), hr2.2, ?_⟩
        have := h2 g hgs r e
        have := (hun w hw hwf).2
        omega
      · exact nomatch hr

theorem Closed.trans {a b c : St} (h : Closed a b) (h' : Closed b c) : Closed a c := by
  refine ⟨fun w hw => h.less w (h'.less w hw), fun g hg => h.regs g (h'.regs g hg), fun g => ?_, fun w hw hn v hv e => ?_, fun w hw hn g hg hcl => ?_⟩
  · rcases h'.whole g with e | e
    · exact Or.inl e
    · rcases h.whole g with e' | e'
      · exact Or.inl fun w hw => e' w (h'.less w hw)
      · exact Or.inr fun w hw hf => e w (e' w hw hf) hf
  · by_cases hb : w ∈ b.wins
    · have hv' : v ∈ b.wins := by
        rcases h.whole w.file with e' | e'
        · exact absurd (Eq.refl _) (e' w hb)
        · exact e' v hv e
      exact h'.unused w hb hn v hv' e
    · exact h.unused w hw hb v hv e
  · by_cases hb : w ∈ b.wins
    · exact h'.cold w hb hn g hg hcl
    · -- the file was closable before as well
      obtain ⟨⟨v0, hv0, hv0g⟩, hcl2⟩ := hcl
      have hw' : ∀ v ∈ b.wins, v.file = g → v ∈ c.wins := by
        rcases h'.whole g with e' | e'
        · exact absurd hv0g (e' v0 hv0)
        · exact e'
      obtain ⟨v, hv, hvg, hl⟩ := h.cold w hw hb g (h'.regs g hg) ⟨⟨v0, h'.less v0 hv0, hv0g⟩, fun v hv e => hcl2 v (hw' v hv e) e⟩
      exact ⟨v, hw' v hv hvg, hvg, hl⟩

theorem limitFiles_closed (limit : Nat) (hl : limit ≠ 0) : ∀ (n : Nat) {s : St}, s.reg.length ≤ n → Ok s → Counted s →
    Closed s (limitFiles limit n s) ∧ ((limitFiles limit n s).reg.length < limit ∨ findLruFile (limitFiles limit n s) = none) := by
  intro n
  induction n with
  | zero =>
    intro s hn h hc
    exact ⟨Closed.rfl, Or.inl (by change s.reg.length < limit; omega)⟩
  | succ n ih =>
    intro s hn h hc
    rw [limitFiles]
    by_cases e : limit ≤ s.reg.length
    · rw [if_pos e]
      cases e' : findLruFile s with
      | none => exact ⟨Closed.rfl, Or.inr e'⟩
      | some f =>
        have k := freeAll_keeps h hc f
        obtain ⟨hreg, hcl⟩ := freeAll_closed h hc e'
        have hlen : (freeAllLocked s f).1.reg.length ≤ n := by
          rw [k.2.1, List.length_erase_of_mem hreg]; omega
        have := ih hlen k.1.ok k.1.counted
        exact ⟨hcl.trans this.1, this.2⟩
    · rw [if_neg e]; exact ⟨Closed.rfl, Or.inl (by omega)⟩

end Verif.Mwindow
