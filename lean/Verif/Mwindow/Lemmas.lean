import Verif.Mwindow.Model
import Mathlib.Data.List.Nodup
/-! # Windows that are counted by their cursors -/
namespace Verif.Mwindow
open Spec

/-! ## Counting -/

/-- how many of the first `n` cursors point to a window -/
def cnt (cur : Nat → Option Nat) (i : Nat) : Nat → Nat
  | 0 => 0
  | n + 1 => cnt cur i n + if cur n = some i then 1 else 0

theorem cnt_le (cur : Nat → Option Nat) (i n : Nat) : cnt cur i n ≤ n := by
  induction n with
  | zero => simp [cnt]
  | succ n ih => rw [cnt]; split <;> omega

theorem cnt_pos {cur : Nat → Option Nat} {i c : Nat} (h : cur c = some i) : ∀ {n}, c < n → 0 < cnt cur i n := by
  intro n
  induction n with
  | zero => intro hc; omega
  | succ n ih =>
    intro hc; rw [cnt]
    by_cases e : c = n
    · subst e; rw [if_pos h]; omega
    · have := ih (by omega); omega

theorem cnt_same {cur cur' : Nat → Option Nat} {i n : Nat} (h : ∀ c, c < n → (cur c = some i ↔ cur' c = some i)) :
    cnt cur i n = cnt cur' i n := by
  induction n with
  | zero => rfl
  | succ n ih =>
    rw [cnt, cnt, ih (fun c hc => h c (by omega))]
    have := h n (by omega)
    by_cases e : cur n = some i
    · rw [if_pos e, if_pos (this.1 e)]
    · rw [if_neg e, if_neg (fun h' => e (this.2 h'))]

/-- what a cursor adds to the count of a window -/
def one (v : Option Nat) (i : Nat) : Nat := if v = some i then 1 else 0

theorem cnt_update (cur : Nat → Option Nat) (i c : Nat) (v : Option Nat) : ∀ n, c < n →
    cnt (fun d => if d = c then v else cur d) i n + one (cur c) i = cnt cur i n + one v i := by
  intro n
  induction n with
  | zero => intro hc; omega
  | succ n ih =>
    intro hc
    rw [cnt, cnt]
    by_cases e : n = c
    · subst e
      rw [cnt_same (cur' := cur) (fun d hd => by rw [if_neg (by omega)]), if_pos rfl]
      unfold one; omega
    · rw [if_neg e]
      have := ih (by omega)
      omega

/-! ## What holds of the windows and the cursors -/

/-- there are fewer cursors than this -/
abbrev NC : Nat := 2 ^ 64 - 1

/-- what is always true of a state whose files are `data` -/
structure Ok (s : St) : Prop where
  ids : (s.wins.map (·.id)).Nodup
  below : ∀ w ∈ s.wins, w.id < s.next
  cover : ∀ w ∈ s.wins, w.data = ((s.data w.file).drop w.off).take w.data.length ∧ w.off + w.data.length ≤ (s.data w.file).length
  few : ∀ c, NC ≤ c → s.cur c = none
  live : ∀ c i, s.cur c = some i → ∃ w ∈ s.wins, w.id = i

/-- the count of a window is that of its cursors -/
def Counted (s : St) : Prop := ∀ w ∈ s.wins, w.inuse = cnt s.cur w.id NC

theorem unique {s : St} (h : (s.wins.map (·.id)).Nodup) {v w : Win} (hv : v ∈ s.wins) (hw : w ∈ s.wins) (e : v.id = w.id) : v = w :=
  List.inj_on_of_nodup_map h hv hw e

theorem deref_some {s : St} {i : Nat} {w : Win} (h : s.deref i = some w) : w ∈ s.wins ∧ w.id = i := by
  unfold St.deref at h
  exact ⟨List.mem_of_find?_eq_some h, by simpa using List.find?_some h⟩

theorem deref_mem {s : St} (h : (s.wins.map (·.id)).Nodup) {w : Win} (hw : w ∈ s.wins) : s.deref w.id = some w := by
  cases e : s.deref w.id with
  | none =>
    unfold St.deref at e
    have := List.find?_eq_none.1 e w hw
    simp at this
  | some v => have := deref_some e; rw [unique h this.1 hw this.2]

theorem mem_windows {s : St} {f : Nat} {w : Win} : w ∈ s.windows f ↔ w ∈ s.wins ∧ w.file = f := by
  simp [St.windows]

theorem mem_unmap {s : St} {w v : Win} : v ∈ (s.unmap w).wins ↔ v ∈ s.wins ∧ v.id ≠ w.id := by
  simp [St.unmap]

/-- a window that is not used can go -/
theorem ok_unmap {s : St} (h : Ok s) (hc : Counted s) {w : Win} (hw : w ∈ s.wins) (hu : w.inuse = 0) :
    Ok (s.unmap w) ∧ Counted (s.unmap w) := by
  have hcount : cnt s.cur w.id NC = 0 := by rw [← hc w hw]; exact hu
  refine ⟨⟨?_, ?_, ?_, h.few, ?_⟩, ?_⟩
  · exact h.ids.sublist (List.Sublist.map _ (List.filter_sublist))
  · intro v hv; exact h.below v (mem_unmap.1 hv).1
  · intro v hv; exact h.cover v (mem_unmap.1 hv).1
  · intro c i hci
    obtain ⟨v, hv, e⟩ := h.live c i hci
    refine ⟨v, mem_unmap.2 ⟨hv, fun e' => ?_⟩, e⟩
    have hcN : c < NC := by
      by_contra hn
      have h0 : s.cur c = none := h.few c (by omega)
      rw [show s.cur c = some i from hci] at h0; exact nomatch h0
    have : (s.unmap w).cur c = some w.id := by rw [hci, ← e, e']
    have := cnt_pos this hcN
    change 0 < cnt s.cur w.id NC at this
    omega
  · intro v hv; exact hc v (mem_unmap.1 hv).1

/-- how a state is related to what is left of it when unused windows go: files, cursors and numbers are the same -/
structure Less (s s' : St) : Prop where
  sub : ∀ w ∈ s'.wins, w ∈ s.wins
  gone : ∀ w ∈ s.wins, w ∉ s'.wins → w.inuse = 0
  data : s'.data = s.data
  cur : s'.cur = s.cur
  ctr : s'.usedCtr = s.usedCtr
  next : s'.next = s.next

theorem Less.rfl {s : St} : Less s s := ⟨fun _ h => h, fun _ h h' => absurd h h', by rfl, by rfl, by rfl, by rfl⟩

theorem Less.trans {a b c : St} (h : Less a b) (h' : Less b c) : Less a c :=
  ⟨fun w hw => h.sub w (h'.sub w hw), fun w hw hn => by
    by_cases e : w ∈ b.wins
    · exact h'.gone w e hn
    · exact h.gone w hw e,
   h'.data.trans h.data, h'.cur.trans h.cur, h'.ctr.trans h.ctr, h'.next.trans h.next⟩

theorem less_unmap {s : St} (h : Ok s) {w : Win} (hw : w ∈ s.wins) (hu : w.inuse = 0) : Less s (s.unmap w) := by
  refine ⟨fun v hv => (mem_unmap.1 hv).1, fun v hv hn => ?_, by rfl, by rfl, by rfl, by rfl⟩
  have : v.id = w.id := by
    by_contra e
    exact hn (mem_unmap.2 ⟨hv, e⟩)
  rw [unique h.ids hv hw this]; exact hu

/-! ## What the scan finds -/

theorem scan_find {only lru : Bool} : ∀ {ws : List Win} {best : Option Win} {found : Bool} {r : Win},
    scan only lru ws best found = some r → (found = true ∧ best = some r) ∨ (r ∈ ws ∧ r.inuse = 0) := by
  intro ws
  induction ws with
  | nil =>
    intro best found r h
    rw [scan] at h
    by_cases e : found = true
    · rw [if_pos e] at h; exact Or.inl ⟨e, h⟩
    · rw [if_neg e] at h; exact nomatch h
  | cons w t ih =>
    intro best found r h
    rw [scan] at h
    by_cases e : w.inuse ≠ 0
    · rw [if_pos e] at h
      by_cases e' : only = true
      · rw [if_pos e'] at h; exact nomatch h
      · rw [if_neg e'] at h
        rcases ih h with h' | h'
        · exact Or.inl h'
        · exact Or.inr ⟨List.mem_cons_of_mem _ h'.1, h'.2⟩
    · rw [if_neg e] at h
      by_cases e' : better lru best w = true
      · rw [if_pos e'] at h
        rcases ih h with h' | h'
        · refine Or.inr ⟨?_, ?_⟩
          · rw [Option.some.inj h'.2]; exact List.mem_cons_self
          · rw [← Option.some.inj h'.2]; omega
        · exact Or.inr ⟨List.mem_cons_of_mem _ h'.1, h'.2⟩
      · rw [if_neg e'] at h
        rcases ih h with h' | h'
        · exact Or.inl h'
        · exact Or.inr ⟨List.mem_cons_of_mem _ h'.1, h'.2⟩

theorem scan_found {lru : Bool} : ∀ {ws : List Win} {b : Win}, ∃ r, scan false lru ws (some b) true = some r := by
  intro ws
  induction ws with
  | nil => intro b; exact ⟨b, rfl⟩
  | cons w t ih =>
    intro b
    rw [scan]
    by_cases e : w.inuse ≠ 0
    · rw [if_pos e, if_neg (by simp)]; exact ih
    · rw [if_neg e]
      by_cases e' : better lru (some b) w = true
      · rw [if_pos e']; exact ih
      · rw [if_neg e']; exact ih

theorem scan_none {lru : Bool} : ∀ {ws : List Win}, scan false lru ws none false = none → ∀ w ∈ ws, w.inuse ≠ 0 := by
  intro ws
  induction ws with
  | nil => intro _ w hw; exact absurd hw (List.not_mem_nil)
  | cons w t ih =>
    intro h v hv
    rw [scan] at h
    by_cases e : w.inuse ≠ 0
    · rw [if_pos e, if_neg (by simp)] at h
      rcases List.mem_cons.1 hv with rfl | hv
      · exact e
      · exact ih h v hv
    · rw [if_neg e] at h
      have e' : better lru none w = true := rfl
      rw [if_pos e'] at h
      obtain ⟨r, hr⟩ := scan_found (lru := lru) (ws := t) (b := w)
      rw [hr] at h; exact nomatch h

theorem lruWindow_find {s : St} : ∀ {fs : List Nat} {best : Option Win} {r : Win}, lruWindow s fs best = some r →
    best = some r ∨ (r ∈ s.wins ∧ r.inuse = 0 ∧ r.file ∈ fs) := by
  intro fs
  induction fs with
  | nil => intro best r h; exact Or.inl h
  | cons f t ih =>
    intro best r h
    rw [lruWindow] at h
    cases e : scan false true (s.windows f) best false with
    | none =>
      rw [e] at h
      rcases ih h with h' | ⟨h1, h2, h3⟩
      · exact Or.inl h'
      · exact Or.inr ⟨h1, h2, List.mem_cons_of_mem _ h3⟩
    | some w =>
      rw [e] at h
      rcases ih h with h' | ⟨h1, h2, h3⟩
      · have e2 := Option.some.inj h'
        subst e2
        rcases scan_find e with ⟨h'', _⟩ | ⟨h1, h2⟩
        · exact nomatch h''
        · have := mem_windows.1 h1
          exact Or.inr ⟨this.1, h2, by rw [this.2]; exact List.mem_cons_self⟩
      · exact Or.inr ⟨h1, h2, List.mem_cons_of_mem _ h3⟩

theorem lruWindow_some {s : St} : ∀ {fs : List Nat} {b : Win}, ∃ r, lruWindow s fs (some b) = some r := by
  intro fs
  induction fs with
  | nil => intro b; exact ⟨b, rfl⟩
  | cons f t ih =>
    intro b
    rw [lruWindow]
    cases e : scan false true (s.windows f) (some b) false with
    | none => exact ih
    | some w => exact ih

theorem lruWindow_none {s : St} : ∀ {fs : List Nat}, lruWindow s fs none = none →
    ∀ w ∈ s.wins, w.file ∈ fs → w.inuse ≠ 0 := by
  intro fs
  induction fs with
  | nil => intro _ w _ hf; exact absurd hf (List.not_mem_nil)
  | cons f t ih =>
    intro h w hw hf
    rw [lruWindow] at h
    cases e : scan false true (s.windows f) none false with
    | none =>
      rw [e] at h
      rcases List.mem_cons.1 hf with e' | hf
      · exact scan_none e w (mem_windows.2 ⟨hw, e'⟩)
      · exact ih h w hw hf
    | some v =>
      rw [e] at h
      obtain ⟨r, hr⟩ := lruWindow_some (s := s) (fs := t) (b := v)
      rw [show lruWindow s t (some v) = none from h] at hr; exact nomatch hr

theorem closeLru_some {s s' : St} (h : closeLru s = some s') :
    ∃ w ∈ s.wins, w.inuse = 0 ∧ w.file ∈ s.reg ∧ s' = s.unmap w := by
  unfold closeLru at h
  cases e : lruWindow s s.reg none with
  | none => rw [e] at h; exact nomatch h
  | some w =>
    rw [e] at h
    rcases lruWindow_find e with h' | ⟨h1, h2, h3⟩
    · exact nomatch h'
    · exact ⟨w, h1, h2, h3, (Option.some.inj h).symm⟩

theorem closeLru_none {s : St} (h : closeLru s = none) : ∀ w ∈ s.wins, w.file ∈ s.reg → w.inuse ≠ 0 := by
  unfold closeLru at h
  cases e : lruWindow s s.reg none with
  | none => exact lruWindow_none e
  | some w => rw [e] at h; exact nomatch h

/-- what a state keeps: it is in order, and the sum is the number that is kept -/
structure Keeps (s s' : St) : Prop where
  less : Less s s'
  ok : Ok s'
  counted : Counted s'

theorem Keeps.rfl {s : St} (h : Ok s) (hc : Counted s) : Keeps s s := ⟨Less.rfl, h, hc⟩

theorem keeps_unmap {s : St} (h : Ok s) (hc : Counted s) {w : Win} (hw : w ∈ s.wins) (hu : w.inuse = 0) : Keeps s (s.unmap w) :=
  ⟨less_unmap h hw hu, (ok_unmap h hc hw hu).1, (ok_unmap h hc hw hu).2⟩

theorem Keeps.trans {a b c : St} (h : Keeps a b) (h' : Keeps b c) : Keeps a c := ⟨h.less.trans h'.less, h'.ok, h'.counted⟩

theorem evict_keeps (limit : Option Nat) : ∀ (n : Nat) {s : St}, Ok s → Counted s →
    Keeps s (evict limit n s) ∧ (evict limit n s).reg = s.reg := by
  intro n
  induction n with
  | zero => intro s h hc; exact ⟨Keeps.rfl h hc, rfl⟩
  | succ n ih =>
    intro s h hc
    rw [evict]
    by_cases e : above limit s = true
    · rw [if_pos e]
      cases e' : closeLru s with
      | none => exact ⟨Keeps.rfl h hc, rfl⟩
      | some s' =>
        obtain ⟨w, hw, hu, _, rfl⟩ := closeLru_some e'
        have k := keeps_unmap h hc hw hu
        have k' := ih k.ok k.counted
        exact ⟨k.trans k'.1, k'.2⟩
    · rw [if_neg e]; exact ⟨Keeps.rfl h hc, rfl⟩

theorem freeLoop_keeps (f : Nat) : ∀ (n : Nat) {s : St}, Ok s → Counted s →
    Keeps s (freeLoop f n s).1 ∧ (freeLoop f n s).1.reg = s.reg ∧
    (∀ w ∈ s.wins, w.file ≠ f → w ∈ (freeLoop f n s).1.wins) := by
  intro n
  induction n with
  | zero => intro s h hc; exact ⟨Keeps.rfl h hc, rfl, fun _ hw _ => hw⟩
  | succ n ih =>
    intro s h hc
    rw [freeLoop]
    cases e : s.windows f with
    | nil => exact ⟨Keeps.rfl h hc, rfl, fun _ hw _ => hw⟩
    | cons w t =>
      have hw : w ∈ s.wins ∧ w.file = f := mem_windows.1 (by rw [e]; exact List.mem_cons_self)
      by_cases hu : w.inuse ≠ 0
      · simp only [hu, if_true, ne_eq, not_false_eq_true]
        exact ⟨Keeps.rfl h hc, by simp, fun _ hw _ => by simpa using hw⟩
      · simp only [if_neg hu]
        have k := keeps_unmap h hc hw.1 (by omega)
        have k' := ih k.ok k.counted
        refine ⟨k.trans k'.1, k'.2.1, fun v hv hf => k'.2.2 v (mem_unmap.2 ⟨hv, fun e' => hf ?_⟩) hf⟩
        rw [unique h.ids hv hw.1 e']; exact hw.2

theorem ok_reg {s : St} (h : Ok s) (hc : Counted s) (r : List Nat) : Keeps s { s with reg := r } :=
  ⟨⟨fun _ h => h, fun _ h h' => absurd h h', rfl, rfl, rfl, rfl⟩, ⟨h.ids, h.below, h.cover, h.few, h.live⟩, hc⟩

theorem freeAll_keeps {s : St} (h : Ok s) (hc : Counted s) (f : Nat) :
    Keeps s (freeAllLocked s f).1 ∧ (freeAllLocked s f).1.reg = s.reg.erase f ∧
    (∀ w ∈ s.wins, w.file ≠ f → w ∈ (freeAllLocked s f).1.wins) := by
  unfold freeAllLocked
  have k := ok_reg h hc (s.reg.erase f)
  have k' := freeLoop_keeps f s.wins.length k.ok k.counted
  exact ⟨k.trans k'.1, k'.2.1, k'.2.2⟩

theorem limitFiles_keeps (limit : Nat) : ∀ (n : Nat) {s : St}, Ok s → Counted s → Keeps s (limitFiles limit n s) := by
  intro n
  induction n with
  | zero => intro s h hc; exact Keeps.rfl h hc
  | succ n ih =>
    intro s h hc
    rw [limitFiles]
    by_cases e : limit ≤ s.reg.length
    · rw [if_pos e]
      cases e' : findLruFile s with
      | none => exact Keeps.rfl h hc
      | some f =>
        have k := (freeAll_keeps h hc f).1
        exact k.trans (ih k.ok k.counted)
    · rw [if_neg e]; exact Keeps.rfl h hc

end Verif.Mwindow
