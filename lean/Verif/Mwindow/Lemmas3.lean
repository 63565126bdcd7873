import Verif.Mwindow.Lemmas2
/-! # One call -/
namespace Verif.Mwindow
open Spec

/-- the same state with other cursors -/
def withCur (s : St) (k : Nat → Option Nat) : St := { s with cur := k }

theorem lruWindow_cur (s : St) (k : Nat → Option Nat) : ∀ (fs : List Nat) (b : Option Win),
    lruWindow (withCur s k) fs b = lruWindow s fs b := by
  intro fs
  induction fs with
  | nil => intro b; rfl
  | cons f t ih =>
    intro b
    rw [lruWindow, lruWindow]
    have : (withCur s k).windows f = s.windows f := rfl
    rw [this]
    cases scan false true (s.windows f) b false with
    | none => exact ih b
    | some w => exact ih _

theorem closeLru_cur (s : St) (k : Nat → Option Nat) : closeLru (withCur s k) = (closeLru s).map (withCur · k) := by
  unfold closeLru
  have : (withCur s k).reg = s.reg := rfl
  rw [lruWindow_cur, this]
  cases lruWindow s s.reg none with
  | none => rfl
  | some w => rfl

theorem evict_cur (l : Option Nat) (k : Nat → Option Nat) : ∀ (n : Nat) (s : St), evict l n (withCur s k) = withCur (evict l n s) k := by
  intro n
  induction n with
  | zero => intro s; rfl
  | succ n ih =>
    intro s
    rw [evict, evict]
    have : above l (withCur s k) = above l s := by cases l <;> rfl
    rw [this, closeLru_cur]
    by_cases e : above l s = true
    · rw [if_pos e, if_pos e]
      cases closeLru s with
      | none => rfl
      | some s' => exact ih s'
    · rw [if_neg e, if_neg e]

/-- what `newWindow` gives, with other cursors -/
theorem newWindow_cur (cfg : Cfg) (s : St) (k : Nat → Option Nat) (f off : Nat) (b1 b2 : Bool) :
    newWindow cfg (withCur s k) f off b1 b2 =
      match newWindow cfg s f off b1 b2 with
      | .ok (s', w) => .ok (withCur s' k, w)
      | r => r := by
  unfold newWindow
  by_cases e : cfg.windowSize / 2 = 0
  · rw [if_pos e, if_pos e]
  · rw [if_neg e, if_neg e]
    have e1 : freshWin cfg (withCur s k) f off = freshWin cfg s f off := rfl
    have e2 : freshLen cfg (withCur s k) f off = freshLen cfg s f off := rfl
    dsimp only
    rw [e1, e2]
    have e3 : ({ withCur s k with mapped := add64 (withCur s k).mapped (freshLen cfg s f off), next := (withCur s k).next + 1 } : St) =
        withCur { s with mapped := add64 s.mapped (freshLen cfg s f off), next := s.next + 1 } k := rfl
    rw [e3]
    generalize ({ s with mapped := add64 s.mapped (freshLen cfg s f off), next := s.next + 1 } : St) = s1
    have e4 : (withCur s k).wins = s.wins := rfl
    rw [e4, evict_cur]
    generalize evict (some cfg.mappedLimit) s.wins.length s1 = s2
    have e5 : (withCur s2 k).wins = s2.wins := rfl
    rw [e5, evict_cur]
    generalize evict none s2.wins.length s2 = s3
    by_cases c1 : (b1 && decide (0 < (freshWin cfg s f off).data.length)) = true
    · rw [if_pos c1, if_pos c1]
    · rw [if_neg c1, if_neg c1]
      by_cases c2 : (b2 && decide (0 < (freshWin cfg s f off).data.length)) = true
      · rw [if_pos c2, if_pos c2]
      · rw [if_neg c2, if_neg c2]

/-- a new window, when there is something to map -/
theorem newWindow_spec {cfg : Cfg} {s : St} (h : Ok s) (hc : Counted s) {f off : Nat} {b1 b2 : Bool}
    (hw : cfg.windowSize / 2 ≠ 0) (hlt : off < (s.data f).length) :
    (∃ s', newWindow cfg s f off b1 b2 = .ok (s', some (freshWin cfg s f off)) ∧
      Ok { s' with wins := freshWin cfg s f off :: s'.wins } ∧ Counted { s' with wins := freshWin cfg s f off :: s'.wins } ∧
      Grows cfg.windowSize s { s' with wins := freshWin cfg s f off :: s'.wins } ∧ s'.next = s.next + 1 ∧ s'.data = s.data ∧ s'.cur = s.cur) ∨
    (b1 = false ∧ b2 = false ∧ ∃ s', newWindow cfg s f off b1 b2 = .ok (s', none) ∧ Ok s' ∧ Counted s' ∧
      Grows cfg.windowSize s s' ∧ s'.next = s.next + 1 ∧ s'.data = s.data ∧ s'.cur = s.cur) := by
  have hoff : (freshWin cfg s f off).off ≤ off := windowOff_le _ _
  have hlen := freshWin_len cfg s f off
  have hd : decide (0 < (freshWin cfg s f off).data.length) = true := by
    rw [decide_eq_true_eq]; omega
  have hb : ∀ w ∈ s.wins, w.id < s.next := h.below
  have hl : ∀ c i, s.cur c = some i → i < s.next := fun c i e => by
    obtain ⟨w, hw', e'⟩ := h.live c i e
    have := hb w hw'; omega
  unfold newWindow
  rw [if_neg hw]
  dsimp only
  rw [hd, Bool.and_true, Bool.and_true]
  generalize hs1 : ({ s with mapped := add64 s.mapped (freshLen cfg s f off), next := s.next + 1 } : St) = s1
  have o1 : Ok s1 := by
    subst hs1
    exact ⟨h.ids, fun w hw => Nat.lt_succ_of_lt (hb w hw), h.cover, h.few, h.live⟩
  have c1 : Counted s1 := by subst hs1; exact hc
  have k2 := (evict_keeps (some cfg.mappedLimit) s.wins.length o1 c1).1
  generalize evict (some cfg.mappedLimit) s.wins.length s1 = s2 at k2
  have k3 := k2.trans (evict_keeps none s2.wins.length k2.ok k2.counted).1
  generalize evict none s2.wins.length s2 = s3 at k3
  have n1 : s1.next = s.next + 1 := by subst hs1; rfl
  have d1 : s1.data = s.data := by subst hs1; rfl
  have u1 : s1.cur = s.cur := by subst hs1; rfl
  have w1 : s1.wins = s.wins := by subst hs1; rfl
  have fr : freshWin cfg s1 f off = { freshWin cfg s f off with id := s.next + 1 } := by subst hs1; rfl
  have good : ∀ t, Keeps s1 t → Ok { t with wins := freshWin cfg s f off :: t.wins } ∧ Counted { t with wins := freshWin cfg s f off :: t.wins } ∧
      Grows cfg.windowSize s { t with wins := freshWin cfg s f off :: t.wins } ∧ t.next = s.next + 1 ∧ t.data = s.data ∧ t.cur = s.cur := by
    intro t k
    have ln : t.next = s.next + 1 := k.less.next.trans n1
    have ls : Less s { t with next := s.next } :=
      ⟨fun w hw => by have := k.less.sub w hw; rwa [w1] at this,
       fun w hw hn => k.less.gone w (by rw [w1]; exact hw) hn, k.less.data.trans d1, k.less.cur.trans u1,
       by have := k.less.ctr; rw [this]; subst hs1; rfl, rfl⟩
    have ob : Ok { t with next := s.next } :=
      ⟨k.ok.ids, fun w hw => hb w (ls.sub w hw), k.ok.cover, k.ok.few, k.ok.live⟩
    have := ok_cons (cfg := cfg) (f := f) (off := off) ls (Or.inr rfl) ob k.counted hlt t.next hb hl ⟨by rw [ln]; exact Nat.le_succ _, by omega⟩
    refine ⟨this.1, this.2, fun w hw => ?_, ln, k.less.data.trans d1, k.less.cur.trans u1⟩
    rcases List.mem_cons.1 hw with rfl | hw
    · exact Or.inr ⟨rfl, by omega⟩
    · exact Or.inl ⟨w, ls.sub w hw, Same.rfl⟩
  by_cases e1 : b1 = true
  · rw [if_pos e1]
    exact Or.inl ⟨s2, rfl, good s2 k2⟩
  · rw [if_neg e1]
    by_cases e2 : b2 = true
    · rw [if_pos e2]
      exact Or.inl ⟨s3, rfl, good s3 k3⟩
    · rw [if_neg e2]
      refine Or.inr ⟨by simpa using e1, by simpa using e2, s3, rfl, k3.ok, k3.counted, fun w hw => Or.inl ⟨w, ?_, Same.rfl⟩,
        k3.less.next.trans n1, k3.less.data.trans d1, k3.less.cur.trans u1⟩
      have := k3.less.sub w hw; rwa [w1] at this

/-! ## Calls of one cursor -/

/-- what a call of `look` gives: `s` is before it, `s'` after it -/
structure Looked (cfg : Cfg) (s s' : St) (c f off extra : Nat) (b1 b2 : Bool) (out : Out) : Prop where
  ok : Ok s'
  counted : Counted s'
  grows : Grows cfg.windowSize s s'
  next : s.next ≤ s'.next
  data : s'.data = s.data
  others : ∀ d, d ≠ c → s'.cur d = s.cur d
  out : (∃ p left, ∃ w ∈ s'.wins, out = .ptr p left ∧ w.id = p.win ∧ s'.cur c = some p.win ∧ w.file = f ∧ w.off + p.delta = off ∧
      left = (w.data.length - p.delta) % 2 ^ 32 ∧ p.delta + min (min extra (cfg.windowSize / 2)) ((s.data f).length - off) ≤ w.data.length) ∨
    (out = .null ∧ b1 = false ∧ b2 = false ∧ s'.cur c = none)

theorem finish_spec {cfg : Cfg} {s : St} (h : Ok s) (hc : Counted s) {c f off extra : Nat} {b1 b2 : Bool} (hcN : c < NC)
    {w : Win} (hw : w ∈ s.wins) (hcur : s.cur c = none ∨ s.cur c = some w.id) (hf : w.file = f)
    (hoff : w.off ≤ off) (hin : off - w.off + min (min extra (cfg.windowSize / 2)) ((s.data f).length - off) ≤ w.data.length) :
    ∃ s' out, finish s c w off = .ok (s', out) ∧ Looked cfg s s' c f off extra b1 b2 out := by
  unfold finish
  dsimp only
  rw [if_neg (by omega : ¬ w.data.length < off - w.off)]
  by_cases e : s.cur c = some w.id
  · rw [if_pos e]
    exact ⟨s, _, rfl, h, hc, fun v hv => Or.inl ⟨v, hv, Same.rfl⟩, Nat.le_refl _, rfl, fun _ _ => rfl,
      Or.inl ⟨_, _, w, hw, rfl, rfl, e, hf, by dsimp only; omega, rfl, hin⟩⟩
  · rw [if_neg e]
    have hn : s.cur c = none := hcur.resolve_right e
    have he := enter h hc hcN hn hw s.usedCtr (add64 s.usedCtr 1)
    refine ⟨_, _, rfl, he.1, he.2, grows_change (g := fun v => { v with lastUsed := s.usedCtr, inuse := add64 v.inuse 1 }) (fun _ => ⟨rfl, rfl, rfl, rfl⟩) _ _, Nat.le_refl _, rfl,
      fun d hd => by dsimp only; rw [if_neg hd],
      Or.inl ⟨⟨w.id, off - w.off⟩, _, { w with lastUsed := s.usedCtr, inuse := add64 w.inuse 1 }, mem_change.2 ⟨w, hw, by rw [if_pos rfl]⟩, rfl, rfl, by dsimp only; rw [if_pos rfl], hf, by dsimp only; omega, rfl, hin⟩⟩

theorem finish_next {s s' : St} {c off : Nat} {w : Win} {out : Out} (h : finish s c w off = .ok (s', out)) : s'.next = s.next := by
  unfold finish at h
  dsimp only at h
  by_cases e : w.data.length < off - w.off
  · rw [if_pos e] at h; exact nomatch h
  · rw [if_neg e] at h
    have := Res.ok.inj h
    rw [← (Prod.mk.inj this).1]
    split
    · rfl
    · rfl

theorem contains_iff {w : Win} {off extra : Nat} : contains w off extra = true ↔ w.off ≤ off ∧ off + extra ≤ w.off + w.data.length := by
  simp [contains]

theorem search_spec {cfg : Cfg} {s : St} (h : Ok s) (hc : Counted s) {c f off extra : Nat} {b1 b2 : Bool} (hcN : c < NC)
    (hcur : s.cur c = none) (hws : cfg.windowSize / 2 ≠ 0) (hx : 0 < extra) (hin : off + extra ≤ (s.data f).length) :
    ∃ s' out, search cfg s c f off extra b1 b2 = .ok (s', out) ∧ Looked cfg s s' c f off extra b1 b2 out := by
  unfold search
  cases e : (s.windows f).find? fun w => contains w off extra with
  | some w =>
    have hm := mem_windows.1 (List.mem_of_find?_eq_some e)
    have hk := contains_iff.1 (by simpa using List.find?_some e)
    exact finish_spec h hc hcN hm.1 (Or.inl hcur) hm.2 hk.1 (by omega)
  | none =>
    have hlt : off < (s.data f).length := by omega
    rcases newWindow_spec (b1 := b1) (b2 := b2) h hc hws hlt with ⟨s', e', ho, hc', hg, hn, hd, hu⟩ | ⟨e1, e2, s', e', ho, hc', hg, hn, hd, hu⟩
    · dsimp only
      rw [e']
      dsimp only
      have hoff : (freshWin cfg s f off).off ≤ off := windowOff_le _ _
      have hnear : off < (freshWin cfg s f off).off + cfg.windowSize / 2 := windowOff_near hws
      have hlen := freshWin_len cfg s f off
      have hh : cfg.windowSize / 2 + cfg.windowSize / 2 ≤ cfg.windowSize := by omega
      have hf := finish_spec (cfg := cfg) (c := c) (f := f) (off := off) (extra := extra) (b1 := b1) (b2 := b2) (w := freshWin cfg s f off) ho hc' hcN (List.mem_cons_self) (Or.inl (by rw [← hcur, ← hu])) rfl hoff
        (by
          have : s'.data f = s.data f := by rw [hd]
          dsimp only
          rw [this]
          omega)
      obtain ⟨s'', out, e2, l⟩ := hf
      refine ⟨s'', out, e2, l.ok, l.counted, fun w hw => ?_, ?_, l.data.trans hd, fun d hdc => (l.others d hdc).trans (by rw [← hu]), ?_⟩
      · rcases l.grows w hw with ⟨v, hv, hs⟩ | ⟨e3, _⟩
        · rcases hg v hv with ⟨u, hu', hs'⟩ | ⟨e3, e4⟩
          · exact Or.inl ⟨u, hu', hs'.trans hs⟩
          · exact Or.inr ⟨by rw [hs.id]; exact e3, by rw [hs.data]; exact e4⟩
        · -- the state before `finish` has no further new windows
          exfalso
          have hb := l.ok.below w hw
          have hfin := finish_next e2
          have e3' : w.id = s'.next := e3
          rw [hfin] at hb
          change w.id < s'.next at hb
          omega
      · have := l.next
        change s'.next ≤ _ at this
        omega
      · rcases l.out with ⟨p, left, w, hw, a1, a2, a3, a4, a5, a6, a7⟩ | a
        · have : s'.data f = s.data f := by rw [hd]
          dsimp only at a7
          rw [this] at a7
          exact Or.inl ⟨p, left, w, hw, a1, a2, a3, a4, a5, a6, a7⟩
        · exact Or.inr a
    · dsimp only
      rw [e']
      exact ⟨s', .null, rfl, ho, hc', hg, by omega, hd, fun d _ => by rw [hu], Or.inr ⟨rfl, e1, e2, by rw [hu]; exact hcur⟩⟩

end Verif.Mwindow
