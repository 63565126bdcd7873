import Verif.Mwindow.Lemmas3
/-! # All calls, one after another -/
namespace Verif.Mwindow
open Spec

/-- a cursor that points nowhere -/
def forget (s : St) (c : Nat) : St := withCur s fun d => if d = c then none else s.cur d

theorem finish_forget {s : St} {c off : Nat} {w : Win} (h : s.cur c ≠ some w.id) : finish (forget s c) c w off = finish s c w off := by
  unfold finish
  have e : (forget s c).cur c = none := by simp [forget, withCur]
  dsimp only
  rw [e, if_neg (show ¬ (none : Option Nat) = some w.id from fun e => nomatch e), if_neg h]
  have : (fun d => if d = c then some w.id else (forget s c).cur d) = fun d => if d = c then some w.id else s.cur d := by
    funext d
    by_cases e' : d = c
    · rw [if_pos e', if_pos e']
    · rw [if_neg e', if_neg e']; simp [forget, withCur, e']
  rw [this]
  rfl

theorem finish_ptr {s s' : St} {c off : Nat} {w : Win} {out : Out} (h : finish s c w off = .ok (s', out)) : out ≠ .null := by
  unfold finish at h
  dsimp only at h
  by_cases e : w.data.length < off - w.off
  · rw [if_pos e] at h; exact nomatch h
  · rw [if_neg e] at h
    have := (Prod.mk.inj (Res.ok.inj h)).2
    rw [← this]; exact fun e => nomatch e

theorem newWindow_fresh {cfg : Cfg} {s s' : St} {f off : Nat} {b1 b2 : Bool} {w : Win}
    (h : newWindow cfg s f off b1 b2 = .ok (s', some w)) : w = freshWin cfg s f off := by
  unfold newWindow at h
  by_cases e : cfg.windowSize / 2 = 0
  · rw [if_pos e] at h; exact nomatch h
  · rw [if_neg e] at h
    dsimp only at h
    split at h
    · exact (Option.some.inj (Prod.mk.inj (Res.ok.inj h)).2).symm
    · split at h
      · exact (Option.some.inj (Prod.mk.inj (Res.ok.inj h)).2).symm
      · exact nomatch (Prod.mk.inj (Res.ok.inj h)).2

theorem search_forget {cfg : Cfg} {s : St} {c f off extra i : Nat} {b1 b2 : Bool} (hi : s.cur c = some i) (hn : i < s.next)
    (hno : ∀ w ∈ s.wins, w.id = i → contains w off extra = false) {s' : St} {out : Out}
    (h : search cfg (forget s c) c f off extra b1 b2 = .ok (s', out)) :
    (out ≠ .null ∧ search cfg s c f off extra b1 b2 = .ok (s', out)) ∨
    (out = .null ∧ search cfg s c f off extra b1 b2 = .ok (withCur s' s.cur, .null)) := by
  unfold search at h ⊢
  have e0 : (forget s c).windows f = s.windows f := rfl
  rw [e0] at h
  cases e : (s.windows f).find? fun w => contains w off extra with
  | some w =>
    rw [e] at h
    dsimp only at h ⊢
    have hm := mem_windows.1 (List.mem_of_find?_eq_some e)
    have hk : contains w off extra = true := by simpa using List.find?_some e
    have hne : s.cur c ≠ some w.id := by
      rw [hi]; intro e'
      have := hno w hm.1 (Option.some.inj e').symm
      rw [this] at hk; exact nomatch hk
    rw [finish_forget hne] at h
    exact Or.inl ⟨finish_ptr h, h⟩
  | none =>
    rw [e] at h
    dsimp only at h ⊢
    rw [show forget s c = withCur s _ from rfl, newWindow_cur] at h
    cases e' : newWindow cfg s f off b1 b2 with
    | ub => rw [e'] at h; exact nomatch h
    | err _ => rw [e'] at h; exact nomatch h
    | ok r =>
      obtain ⟨t, w⟩ := r
      rw [e'] at h
      have hcur : t.cur = s.cur := by
        have := newWindow_cur cfg s s.cur f off b1 b2
        rw [show withCur s s.cur = s from rfl, e'] at this
        have := (Prod.mk.inj (Res.ok.inj this)).1
        rw [this]; rfl
      cases w with
      | none =>
        dsimp only at h ⊢
        have := Prod.mk.inj (Res.ok.inj h)
        refine Or.inr ⟨this.2.symm, ?_⟩
        rw [← this.1, ← hcur]; rfl
      | some w =>
        dsimp only at h ⊢
        have hw := newWindow_fresh e'
        have hne : ({ t with wins := w :: t.wins } : St).cur c ≠ some w.id := by
          change t.cur c ≠ _
          rw [hcur, hi, hw]; intro e''
          have : i = s.next := Option.some.inj e''
          omega
        have h2 := finish_forget (off := off) hne
        have e3 : forget ({ t with wins := w :: t.wins } : St) c =
            { withCur t (fun d => if d = c then none else s.cur d) with wins := w :: (withCur t (fun d => if d = c then none else s.cur d)).wins } := by
          unfold forget
          change withCur _ (fun d => if d = c then none else t.cur d) = _
          rw [hcur]; rfl
        rw [e3] at h2
        have h3 := h2.symm.trans h
        exact Or.inl ⟨finish_ptr h3, h3⟩

theorem open_spec {cfg : Cfg} {s : St} (h : Ok s) (hc : Counted s) {c f off extra : Nat} {b1 b2 : Bool} (hcN : c < NC)
    (hfile : ∀ w ∈ s.wins, s.cur c = some w.id → w.file = f)
    (hws : cfg.windowSize / 2 ≠ 0) (hx : 0 < extra) (hin : off + extra ≤ (s.data f).length) :
    ∃ s' out, openWin cfg s c f off extra b1 b2 = .ok (s', out) ∧
      (Looked cfg s s' c f off extra b1 b2 out ∨ (out = .null ∧ s.cur c ≠ none ∧ b1 = false ∧ b2 = false)) := by
  unfold openWin
  cases e : s.cur c with
  | none =>
    obtain ⟨s', out, h1, h2⟩ := search_spec (cfg := cfg) (b1 := b1) (b2 := b2) h hc hcN e hws hx hin
    exact ⟨s', out, h1, Or.inl h2⟩
  | some i =>
    dsimp only
    obtain ⟨w, hw, hwi⟩ := h.live c i e
    have hd : s.deref i = some w := by rw [← hwi]; exact deref_mem h.ids hw
    rw [hd]
    dsimp only
    by_cases hk : contains w off extra = true
    · rw [if_pos hk]
      have hk' := contains_iff.1 hk
      obtain ⟨s', out, h1, h2⟩ := finish_spec (cfg := cfg) (f := f) (off := off) (extra := extra) (b1 := b1) (b2 := b2) h hc hcN hw (Or.inr (by rw [e, hwi]))
        (hfile w hw (by rw [e, hwi])) hk'.1 (by omega)
      exact ⟨s', out, h1, Or.inl h2⟩
    · rw [if_neg hk]
      have hi := depart h hc e
      have hrfl : forget (s.change i fun v => { v with inuse := sub64 v.inuse 1 }) c =
          { s.change i (fun v => { v with inuse := sub64 v.inuse 1 }) with cur := fun d => if d = c then none else s.cur d } := rfl
      have hcurc : (forget (s.change i fun v => { v with inuse := sub64 v.inuse 1 }) c).cur c = none := by
        rw [hrfl]; exact if_pos rfl
      rw [← hrfl] at hi
      obtain ⟨s', out, h1, h2⟩ := search_spec (cfg := cfg) (b1 := b1) (b2 := b2) hi.1 hi.2 hcN hcurc hws hx (f := f) (off := off) (extra := extra) hin
      have hlt : i < s.next := by rw [← hwi]; exact h.below w hw
      have hno : ∀ v ∈ (s.change i fun v => { v with inuse := sub64 v.inuse 1 }).wins, v.id = i → contains v off extra = false := by
        intro v hv hvi
        obtain ⟨u, hu, rfl⟩ := mem_change.1 hv
        have hsame : (if u.id = i then ({ u with inuse := sub64 u.inuse 1 } : Win) else u).id = u.id := by split <;> rfl
        rw [hsame] at hvi
        have : u = w := unique h.ids hu hw (hvi.trans hwi.symm)
        subst this
        rw [if_pos hwi]
        simpa [contains] using hk
      have hg0 : Grows cfg.windowSize s (forget (s.change i fun v => { v with inuse := sub64 v.inuse 1 }) c) :=
        grows_change (g := fun v => { v with inuse := sub64 v.inuse 1 }) (fun _ => ⟨rfl, rfl, rfl, rfl⟩) _ s.usedCtr
      rcases search_forget (cfg := cfg) (extra := extra) (off := off) (s := s.change i fun v => { v with inuse := sub64 v.inuse 1 }) e hlt hno h1 with ⟨_, h3⟩ | ⟨h3, h4⟩
      · refine ⟨s', out, h3, Or.inl ⟨h2.ok, h2.counted, fun v hv => ?_, h2.next, h2.data, fun d hd' => ?_, h2.out⟩⟩
        · rcases h2.grows v hv with ⟨u, hu, hs⟩ | h5
          · rcases hg0 u hu with ⟨t, ht, hs'⟩ | ⟨h6, h7⟩
            · exact Or.inl ⟨t, ht, hs'.trans hs⟩
            · exact Or.inr ⟨by rw [hs.id]; exact h6, by rw [hs.data]; exact h7⟩
          · exact Or.inr h5
        · rw [h2.others d hd']; exact if_neg hd'
      · have hb : b1 = false ∧ b2 = false := by
          rcases h2.out with ⟨_, _, _, _, e1, _⟩ | ⟨_, e1, e2, _⟩
          · rw [h3] at e1; exact nomatch e1
          · exact ⟨e1, e2⟩
        exact ⟨_, _, h4, Or.inr ⟨rfl, fun e' => (nomatch e'), hb⟩⟩

theorem close_spec {s : St} (h : Ok s) (hc : Counted s) (c : Nat) (W : Nat) :
    ∃ s', closeWin s c = .ok (s', .done) ∧ Ok s' ∧ Counted s' ∧ Grows W s s' ∧ s'.next = s.next ∧ s'.data = s.data ∧
      (∀ d, d ≠ c → s'.cur d = s.cur d) ∧ s'.cur c = none := by
  unfold closeWin
  cases e : s.cur c with
  | none => exact ⟨s, rfl, h, hc, fun v hv => Or.inl ⟨v, hv, Same.rfl⟩, rfl, rfl, fun _ _ => rfl, e⟩
  | some i =>
    dsimp only
    obtain ⟨w, hw, hwi⟩ := h.live c i e
    have hd : s.deref i = some w := by rw [← hwi]; exact deref_mem h.ids hw
    rw [hd]
    have hi := depart h hc e
    exact ⟨_, rfl, hi.1, hi.2, grows_change (g := fun v => { v with inuse := sub64 v.inuse 1 }) (fun _ => ⟨rfl, rfl, rfl, rfl⟩) _ s.usedCtr, rfl, rfl,
      fun d hd' => by dsimp only; rw [if_neg hd'], by dsimp only; rw [if_pos rfl]⟩

/-! ## Histories -/

/-- what holds after a careful history -/
structure Inv (cfg : Cfg) (D : Nat → Bytes) (h : History) (s : St) : Prop where
  ok : Ok s
  counted : Counted s
  data : s.data = content D h
  small : ∀ w ∈ s.wins, w.data.length ≤ cfg.windowSize
  idle : ∀ c, holding h c = none → s.cur c = none
  held : ∀ c p left f off, holding h c = some (p, left, f, off) → s.cur c = some p.win ∧
    ∃ w ∈ s.wins, w.id = p.win ∧ w.file = f ∧ w.off + p.delta = off ∧ left = (w.data.length - p.delta) % 2 ^ 32 ∧ p.delta ≤ w.data.length

theorem inv_init (cfg : Cfg) (D : Nat → Bytes) : Inv cfg D [] (St.init D) :=
  ⟨⟨List.nodup_nil, fun _ h => absurd h (List.not_mem_nil), fun _ h => absurd h (List.not_mem_nil), fun _ _ => rfl, fun _ _ h => nomatch h⟩,
   fun _ h => absurd h (List.not_mem_nil), rfl, fun _ h => absurd h (List.not_mem_nil), fun _ _ => rfl, fun _ _ _ _ _ h => nomatch h⟩

/-- a window that a cursor is at stays -/
theorem held_stays {W : Nat} {s s' : St} (h : Ok s) (h' : Ok s') (hg : Grows W s s') {i c : Nat} {w : Win} (hw : w ∈ s.wins) (hi : w.id = i)
    (hcur : s'.cur c = some i) : ∃ w' ∈ s'.wins, Same w w' := by
  obtain ⟨w', hw', e⟩ := h'.live c i hcur
  rcases hg w' hw' with ⟨v, hv, hs⟩ | ⟨e', _⟩
  · have : v = w := unique h.ids hv hw (by rw [← hs.id, e, hi])
    rw [this] at hs
    exact ⟨w', hw', hs⟩
  · have := h.below w hw
    omega

theorem small_grows {cfg : Cfg} {s s' : St} (h : ∀ w ∈ s.wins, w.data.length ≤ cfg.windowSize) (hg : Grows cfg.windowSize s s') :
    ∀ w ∈ s'.wins, w.data.length ≤ cfg.windowSize := by
  intro w hw
  rcases hg w hw with ⟨v, hv, hs⟩ | ⟨_, h2⟩
  · rw [hs.data]; exact h v hv
  · exact h2

/-- a step that does nothing to the cursors but `c`'s -/
theorem inv_step {cfg : Cfg} {D : Nat → Bytes} {h h' : History} {s s' : St} (I : Inv cfg D h s) (ho : Ok s') (hc : Counted s')
    (hd : s'.data = content D h') (hg : Grows cfg.windowSize s s') (hsame : ∀ c, holding h' c = holding h c ∧ s'.cur c = s.cur c ∨
      (holding h' c = none → s'.cur c = none) ∧
      (∀ p left f off, holding h' c = some (p, left, f, off) → s'.cur c = some p.win ∧
        ∃ w ∈ s'.wins, w.id = p.win ∧ w.file = f ∧ w.off + p.delta = off ∧ left = (w.data.length - p.delta) % 2 ^ 32 ∧ p.delta ≤ w.data.length)) :
    Inv cfg D h' s' := by
  refine ⟨ho, hc, hd, small_grows I.small hg, fun c hn => ?_, fun c p left f off hh => ?_⟩
  · rcases hsame c with ⟨e1, e2⟩ | ⟨e1, _⟩
    · rw [e2]; rw [e1] at hn; exact I.idle c hn
    · exact e1 hn
  · rcases hsame c with ⟨e1, e2⟩ | ⟨_, e2⟩
    · rw [e1] at hh
      obtain ⟨a, w, hw, a1, a2, a3, a4, a5⟩ := I.held c p left f off hh
      have hcur : s'.cur c = some p.win := by rw [e2]; exact a
      obtain ⟨w', hw', hs⟩ := held_stays I.ok ho hg hw a1 hcur
      exact ⟨hcur, w', hw', by rw [hs.id]; exact a1, by rw [hs.file]; exact a2, by rw [hs.off]; exact a3, by rw [hs.data]; exact a4, by rw [hs.data]; exact a5⟩
    · exact e2 p left f off hh

end Verif.Mwindow
