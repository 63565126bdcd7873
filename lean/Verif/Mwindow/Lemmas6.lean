import Verif.Mwindow.Lemmas5
/-! # How much is mapped -/
namespace Verif.Mwindow
open Spec

/-- the number that is kept is the sum, and `k` -/
def Summed (k : Nat) (s : St) : Prop := s.mapped = (total s.wins + k) % 2 ^ 64

theorem total_filter : ∀ {ws : List Win}, (ws.map (·.id)).Nodup → ∀ {w : Win}, w ∈ ws →
    total (ws.filter fun v => decide (v.id ≠ w.id)) + w.data.length = total ws := by
  intro ws
  induction ws with
  | nil => intro _ w hw; exact absurd hw (List.not_mem_nil)
  | cons u t ih =>
    intro hn w hw
    rw [List.map_cons, List.nodup_cons] at hn
    rcases List.mem_cons.1 hw with rfl | hw
    · have : (t.filter fun v => decide (v.id ≠ w.id)) = t := by
        apply List.filter_eq_self.2
        intro v hv
        rw [decide_eq_true_eq]
        intro e
        exact hn.1 (List.mem_map.2 ⟨v, hv, e⟩)
      rw [List.filter_cons, if_neg (by simp), this]
      simp [total, Nat.add_comm]
    · have hne : u.id ≠ w.id := fun e => hn.1 (List.mem_map.2 ⟨w, hw, e.symm⟩)
      rw [List.filter_cons, if_pos (by simpa using hne)]
      have := ih hn.2 hw
      simp only [total, List.map_cons, List.sum_cons] at this ⊢
      omega

theorem total_change {s : St} {i : Nat} {g : Win → Win} (hg : ∀ w, (g w).data = w.data) : total (s.change i g).wins = total s.wins := by
  unfold total
  congr 1
  simp only [St.change, List.map_map]
  apply List.map_congr_left
  intro w _
  simp only [Function.comp_apply]
  split
  · rw [hg]
  · rfl

theorem summed_unmap {k : Nat} {s : St} (h : Ok s) (hs : Summed k s) {w : Win} (hw : w ∈ s.wins) : Summed k (s.unmap w) := by
  have := total_filter h.ids hw
  unfold Summed at *
  change sub64 s.mapped w.data.length = (total (s.wins.filter fun v => decide (v.id ≠ w.id)) + k) % 2 ^ 64
  rw [hs, ← this, sub64]
  generalize total (s.wins.filter fun v => decide (v.id ≠ w.id)) = T
  omega

theorem evict_sum {k : Nat} (limit : Option Nat) : ∀ (n : Nat) {s : St}, Ok s → Counted s → Summed k s → Summed k (evict limit n s) := by
  intro n
  induction n with
  | zero => intro s _ _ hs; exact hs
  | succ n ih =>
    intro s h hc hs
    rw [evict]
    by_cases e : above limit s = true
    · rw [if_pos e]
      cases e' : closeLru s with
      | none => exact hs
      | some s' =>
        obtain ⟨w, hw, hu, _, rfl⟩ := closeLru_some e'
        have o := ok_unmap h hc hw hu
        exact ih o.1 o.2 (summed_unmap h hs hw)
    · rw [if_neg e]; exact hs

theorem unmap_shorter {s : St} {w : Win} (hw : w ∈ s.wins) : (s.unmap w).wins.length < s.wins.length := by
  change (s.wins.filter _).length < _
  apply List.length_filter_lt_length_iff_exists.2
  exact ⟨w, hw, by simp⟩

theorem evict_done (limit : Option Nat) : ∀ (n : Nat) {s : St}, s.wins.length ≤ n →
    above limit (evict limit n s) = false ∨ closeLru (evict limit n s) = none := by
  intro n
  induction n with
  | zero =>
    intro s hn
    right
    rw [evict]
    cases e : closeLru s with
    | none => rfl
    | some s' =>
      obtain ⟨w, hw, _⟩ := closeLru_some e
      rw [List.length_eq_zero_iff.1 (show s.wins.length = 0 by omega)] at hw
      exact absurd hw (List.not_mem_nil)
  | succ n ih =>
    intro s hn
    rw [evict]
    by_cases e : above limit s = true
    · rw [if_pos e]
      cases e' : closeLru s with
      | none => exact Or.inr e'
      | some s' =>
        obtain ⟨w, hw, _, _, rfl⟩ := closeLru_some e'
        have := unmap_shorter hw
        exact ih (by omega)
    · rw [if_neg e]; exact Or.inl (by simpa using e)

theorem freeLoop_sum {k : Nat} (f : Nat) : ∀ (n : Nat) {s : St}, Ok s → Counted s → Summed k s → Summed k (freeLoop f n s).1 := by
  intro n
  induction n with
  | zero => intro s _ _ hs; exact hs
  | succ n ih =>
    intro s h hc hs
    rw [freeLoop]
    cases e : s.windows f with
    | nil => exact hs
    | cons w t =>
      have hw : w ∈ s.wins ∧ w.file = f := mem_windows.1 (by rw [e]; exact List.mem_cons_self)
      by_cases hu : w.inuse ≠ 0
      · simp only [if_pos hu]; exact hs
      · simp only [if_neg hu]
        have o := ok_unmap h hc hw.1 (by omega)
        exact ih o.1 o.2 (summed_unmap h hs hw.1)

theorem freeAll_sum {k : Nat} {s : St} (h : Ok s) (hc : Counted s) (hs : Summed k s) (f : Nat) : Summed k (freeAllLocked s f).1 :=
  freeLoop_sum f _ (ok_reg h hc _).ok (ok_reg h hc _).counted hs

theorem limitFiles_sum {k : Nat} (limit : Nat) : ∀ (n : Nat) {s : St}, Ok s → Counted s → Summed k s → Summed k (limitFiles limit n s) := by
  intro n
  induction n with
  | zero => intro s _ _ hs; exact hs
  | succ n ih =>
    intro s h hc hs
    rw [limitFiles]
    by_cases e : limit ≤ s.reg.length
    · rw [if_pos e]
      cases e' : findLruFile s with
      | none => exact hs
      | some f =>
        have k := (freeAll_keeps h hc f).1
        exact ih k.ok k.counted (freeAll_sum h hc hs f)
    · rw [if_neg e]; exact hs

/-- what `finish` gives when the cursor was not at the window -/
theorem finish_eq {s s' : St} {c off : Nat} {w : Win} {out : Out} (h : finish s c w off = .ok (s', out)) (hn : s.cur c ≠ some w.id) :
    s' = { s.change w.id (fun v => { v with lastUsed := s.usedCtr, inuse := add64 v.inuse 1 }) with
      usedCtr := add64 s.usedCtr 1, cur := fun d => if d = c then some w.id else s.cur d } ∧
    ∃ left, out = .ptr ⟨w.id, off - w.off⟩ left := by
  unfold finish at h
  dsimp only at h
  by_cases e : w.data.length < off - w.off
  · rw [if_pos e] at h; exact nomatch h
  · rw [if_neg e, if_neg hn] at h
    have := Prod.mk.inj (Res.ok.inj h)
    exact ⟨this.1.symm, _, this.2.symm⟩

theorem finish_sum {k : Nat} {s s' : St} {c off : Nat} {w : Win} {out : Out} (hs : Summed k s) (h : finish s c w off = .ok (s', out)) : Summed k s' := by
  by_cases e : s.cur c = some w.id
  · unfold finish at h
    dsimp only at h
    by_cases e' : w.data.length < off - w.off
    · rw [if_pos e'] at h; exact nomatch h
    · rw [if_neg e', if_pos e] at h
      rw [← (Prod.mk.inj (Res.ok.inj h)).1]; exact hs
  · rw [(finish_eq h e).1]
    unfold Summed at *
    change s.mapped = (total (s.change _ _).wins + k) % 2 ^ 64
    rw [total_change]
    · exact hs
    · exact fun _ => rfl

/-- after a new window has been made: the sum, and that there is no need or no way to have less -/
theorem newWindow_limit {cfg : Cfg} {s s' : St} (h : Ok s) (hc : Counted s) (hs : Summed 0 s) {f off : Nat} {b1 b2 : Bool} {w : Win}
    (hlt : off < (s.data f).length) (e : newWindow cfg s f off b1 b2 = .ok (s', some w)) :
    Summed w.data.length s' ∧ s'.reg = s.reg ∧ (s'.mapped ≤ cfg.mappedLimit ∨ ∀ v ∈ s'.wins, v.file ∈ s'.reg → v.inuse ≠ 0) := by
  have hw := newWindow_fresh e
  unfold newWindow at e
  by_cases e0 : cfg.windowSize / 2 = 0
  · rw [if_pos e0] at e; exact nomatch e
  · rw [if_neg e0] at e
    dsimp only at e
    have hoff : off / (cfg.windowSize / 2) * (cfg.windowSize / 2) ≤ off := windowOff_le _ _
    have hlen : freshLen cfg s f off = w.data.length := by
      rw [hw]; unfold freshLen
      dsimp only
      rw [if_neg (by omega)]
    rw [hlen] at e
    generalize hs1 : ({ s with mapped := add64 s.mapped w.data.length, next := s.next + 1 } : St) = s1 at e
    have o1 : Ok s1 := by
      subst hs1
      exact ⟨h.ids, fun v hv => Nat.lt_succ_of_lt (h.below v hv), h.cover, h.few, h.live⟩
    have c1 : Counted s1 := by subst hs1; exact hc
    have m1 : Summed w.data.length s1 := by
      subst hs1
      unfold Summed at *
      change add64 s.mapped w.data.length = (total s.wins + w.data.length) % 2 ^ 64
      rw [hs, add64]
      omega
    have r1 : s1.reg = s.reg := by subst hs1; rfl
    have l1 : s1.wins.length ≤ s.wins.length := by subst hs1; exact Nat.le_refl _
    have k2 := evict_keeps (some cfg.mappedLimit) s.wins.length o1 c1
    have m2 := evict_sum (some cfg.mappedLimit) s.wins.length o1 c1 m1
    have d2 := evict_done (some cfg.mappedLimit) s.wins.length l1
    generalize evict (some cfg.mappedLimit) s.wins.length s1 = s2 at k2 m2 d2 e
    have k3 := evict_keeps none s2.wins.length k2.1.ok k2.1.counted
    have m3 := evict_sum none s2.wins.length k2.1.ok k2.1.counted m2
    have d3 := evict_done none s2.wins.length (Nat.le_refl _)
    generalize evict none s2.wins.length s2 = s3 at k3 m3 d3 e
    split at e
    · have := (Prod.mk.inj (Res.ok.inj e)).1
      subst this
      refine ⟨m2, k2.2.trans r1, d2.imp (fun d => ?_) closeLru_none⟩
      simpa [above] using d
    · split at e
      · have := (Prod.mk.inj (Res.ok.inj e)).1
        subst this
        refine ⟨m3, k3.2.trans (k2.2.trans r1), Or.inr (closeLru_none (d3.resolve_left fun d => ?_))⟩
        simp [above] at d
      · exact nomatch (Prod.mk.inj (Res.ok.inj e)).2

theorem search_limit {cfg : Cfg} {s s' : St} (h : Ok s) (hc : Counted s) (hs : Summed 0 s) {c f off extra : Nat} {b1 b2 : Bool} {out : Out}
    (hcur : s.cur c = none) (hws : cfg.windowSize / 2 ≠ 0) (hx : 0 < extra) (hin : off + extra ≤ (s.data f).length)
    (e : search cfg s c f off extra b1 b2 = .ok (s', out)) (hout : out ≠ .null) :
    Summed 0 s' ∧ (∀ p left, out = .ptr p left → p.win = s.next → total s'.wins < 2 ^ 64 →
      total s'.wins ≤ cfg.mappedLimit ∨ ∀ v ∈ s'.wins, v.file ∈ s'.reg → v.inuse ≠ 0) := by
  unfold search at e
  cases e1 : (s.windows f).find? fun w => contains w off extra with
  | some w =>
    rw [e1] at e
    dsimp only at e
    refine ⟨finish_sum hs e, fun p left hp hn => ?_⟩
    have hm := mem_windows.1 (List.mem_of_find?_eq_some e1)
    obtain ⟨_, l, e2⟩ := finish_eq e (by rw [hcur]; exact fun e => nomatch e)
    rw [e2] at hp
    injection hp with hp _
    rw [← hp] at hn
    have := h.below w hm.1
    dsimp only at hn
    omega
  | none =>
    rw [e1] at e
    dsimp only at e
    have hlt : off < (s.data f).length := by omega
    have hspec := newWindow_spec (b1 := b1) (b2 := b2) h hc hws hlt
    cases e2 : newWindow cfg s f off b1 b2 with
    | ub => rw [e2] at e; exact nomatch e
    | err _ => rw [e2] at e; exact nomatch e
    | ok r =>
      obtain ⟨t, w⟩ := r
      rw [e2] at e
      cases w with
      | none => exact absurd (Prod.mk.inj (Res.ok.inj e)).2.symm hout
      | some w =>
        dsimp only at e
        obtain ⟨m, r, d⟩ := newWindow_limit h hc hs hlt e2
        have hw := newWindow_fresh e2
        rcases hspec with ⟨t', e3, ho, _, _, _, _, hu⟩ | ⟨_, _, t', e3, _⟩
        · rw [e2] at e3
          have e4 := (Prod.mk.inj (Res.ok.inj e3)).1
          subst e4
          rw [← hw] at ho
          have m' : Summed 0 { t with wins := w :: t.wins } := by
            unfold Summed at *
            change t.mapped = _
            rw [m]
            simp only [total, List.map_cons, List.sum_cons]
            congr 1; omega
          have hsum := finish_sum m' e
          refine ⟨hsum, fun p left hp hn htot => ?_⟩
          have hne : ({ t with wins := w :: t.wins } : St).cur c ≠ some w.id := by
            change t.cur c ≠ _
            rw [hu, hcur]; exact fun e => nomatch e
          have hfe := (finish_eq e hne).1
          have htot' : total s'.wins = total (w :: t.wins) := by
            rw [hfe]
            change total (St.change _ _ _).wins = _
            rw [total_change]
            exact fun _ => rfl
          rcases d with d | d
          · left
            rw [htot'] at htot ⊢
            unfold Summed at m
            rw [m] at d
            simp only [total, List.map_cons, List.sum_cons] at htot d ⊢
            omega
          · right
            intro v hv hvf
            rw [hfe] at hv hvf
            obtain ⟨u, hu', rfl⟩ := mem_change.1 hv
            change _ ∈ t.reg at hvf
            by_cases ei : u.id = w.id
            · rw [if_pos ei]
              have : u = w := unique ho.ids hu' (List.mem_cons_self) ei
              rw [this, hw]
              change add64 0 1 ≠ 0
              decide
            · rw [if_neg ei] at hvf ⊢
              rcases List.mem_cons.1 hu' with rfl | hu'
              · exact absurd rfl ei
              · exact d u hu' hvf
        · rw [e2] at e3
          exact nomatch (Prod.mk.inj (Res.ok.inj e3)).2

theorem open_cases {cfg : Cfg} {s s' : St} (h : Ok s) (hc : Counted s) {c f off extra : Nat} {b1 b2 : Bool} {out : Out} (hcN : c < NC)
    (hws : cfg.windowSize / 2 ≠ 0) (hx : 0 < extra) (hin : off + extra ≤ (s.data f).length)
    (e : openWin cfg s c f off extra b1 b2 = .ok (s', out)) (hout : out ≠ .null) :
    (∃ w ∈ s.wins, s.cur c = some w.id ∧ finish s c w off = .ok (s', out)) ∨
    (∃ t, Ok t ∧ Counted t ∧ t.cur c = none ∧ search cfg t c f off extra b1 b2 = .ok (s', out) ∧ total t.wins = total s.wins ∧
      t.mapped = s.mapped ∧ t.next = s.next ∧ t.data = s.data) := by
  unfold openWin at e
  cases e0 : s.cur c with
  | none =>
    rw [e0] at e
    exact Or.inr ⟨s, h, hc, e0, e, rfl, rfl, rfl, rfl⟩
  | some i =>
    rw [e0] at e
    dsimp only at e
    obtain ⟨w, hw, hwi⟩ := h.live c i e0
    have hd : s.deref i = some w := by rw [← hwi]; exact deref_mem h.ids hw
    rw [hd] at e
    dsimp only at e
    by_cases hk : contains w off extra = true
    · rw [if_pos hk] at e
      exact Or.inl ⟨w, hw, by rw [hwi], e⟩
    · rw [if_neg hk] at e
      have hi := depart h hc e0
      have hrfl : forget (s.change i fun v => { v with inuse := sub64 v.inuse 1 }) c =
          { s.change i (fun v => { v with inuse := sub64 v.inuse 1 }) with cur := fun d => if d = c then none else s.cur d } := rfl
      have hcurc : (forget (s.change i fun v => { v with inuse := sub64 v.inuse 1 }) c).cur c = none := by
        rw [hrfl]; exact if_pos rfl
      rw [← hrfl] at hi
      obtain ⟨s1, out1, h1, _⟩ := search_spec (cfg := cfg) (b1 := b1) (b2 := b2) hi.1 hi.2 hcN hcurc hws hx (f := f) (off := off) (extra := extra) hin
      have hlt : i < s.next := by rw [← hwi]; exact h.below w hw
      have hno : ∀ v ∈ (s.change i fun v => { v with inuse := sub64 v.inuse 1 }).wins, v.id = i → contains v off extra = false := by
        intro v hv hvi
        obtain ⟨u, hu, rfl⟩ := mem_change.1 hv
        have hsame : (if u.id = i then ({ u with inuse := sub64 u.inuse 1 } : Win) else u).id = u.id := by split <;> rfl
        rw [hsame] at hvi
        have : u = w := unique h.ids hu hw (hvi.trans hwi.symm)
        subst this
        rw [if_pos hwi]
        simpa [contains] using hk
      rcases search_forget (cfg := cfg) (extra := extra) (off := off) (s := s.change i fun v => { v with inuse := sub64 v.inuse 1 }) e0 hlt hno h1 with ⟨_, h3⟩ | ⟨_, h4⟩
      · have : (s1, out1) = (s', out) := Res.ok.inj (h3.symm.trans e)
        rw [this] at h1
        exact Or.inr ⟨_, hi.1, hi.2, hcurc, h1, total_change (s := s) (fun _ => rfl), rfl, rfl, rfl⟩
      · have : (_, Out.null) = (s', out) := Res.ok.inj (h4.symm.trans e)
        exact absurd (Prod.mk.inj this).2.symm hout

theorem open_limit {cfg : Cfg} {s s' : St} (h : Ok s) (hc : Counted s) (hs : Summed 0 s) {c f off extra : Nat} {b1 b2 : Bool} {out : Out} (hcN : c < NC)
    (hws : cfg.windowSize / 2 ≠ 0) (hx : 0 < extra) (hin : off + extra ≤ (s.data f).length)
    (e : openWin cfg s c f off extra b1 b2 = .ok (s', out)) (hout : out ≠ .null) :
    Summed 0 s' ∧ (∀ p left, out = .ptr p left → p.win = s.next → total s'.wins < 2 ^ 64 →
      total s'.wins ≤ cfg.mappedLimit ∨ ∀ v ∈ s'.wins, v.file ∈ s'.reg → v.inuse ≠ 0) := by
  rcases open_cases h hc hcN hws hx hin e hout with ⟨w, hw, hcur, hf⟩ | ⟨t, ht, hct, hcur, hse, h1, h2, h3, h4⟩
  · refine ⟨finish_sum hs hf, fun p left hp hn => ?_⟩
    have : p.win = w.id := by
      unfold finish at hf
      dsimp only at hf
      by_cases e' : w.data.length < off - w.off
      · rw [if_pos e'] at hf; exact nomatch hf
      · rw [if_neg e'] at hf
        have := (Prod.mk.inj (Res.ok.inj hf)).2
        rw [hp] at this
        injection this with this _
        rw [← this]
    have hb := h.below w hw
    omega
  · have := search_limit ht hct (by unfold Summed at *; rw [h1, h2]; exact hs) hcur hws hx (by rw [h4]; exact hin) hse hout
    rw [h3] at this
    exact this

theorem step_sum {cfg : Cfg} {D : Nat → Bytes} {h : History} {s s' : St} (I : Inv cfg D h s) (hws : 2 ≤ cfg.windowSize) {op : Op} {out : Out} (hw : Wise D h op)
    (hs : Summed 0 s) (e : step cfg s op = .ok (s', out)) (hout : out ≠ .null) : Summed 0 s' := by
  cases op with
  | look c f off extra b1 b2 =>
    obtain ⟨w1, w2, w3, _⟩ := hw
    exact (open_limit I.ok I.counted hs w1 (by omega) w2 (by rw [I.data]; exact w3) e hout).1
  | leave c =>
    change closeWin s c = _ at e
    unfold closeWin at e
    cases e0 : s.cur c with
    | none =>
      rw [e0] at e
      rw [← (Prod.mk.inj (Res.ok.inj e)).1]; exact hs
    | some i =>
      rw [e0] at e
      dsimp only at e
      cases e1 : s.deref i with
      | none => rw [e1] at e; exact nomatch e
      | some w =>
        rw [e1] at e
        rw [← (Prod.mk.inj (Res.ok.inj e)).1]
        unfold Summed at *
        change s.mapped = (total (St.change _ _ _).wins + 0) % 2 ^ 64
        rw [total_change]
        · exact hs
        · exact fun _ => rfl
  | register f =>
    rw [← (Prod.mk.inj (Res.ok.inj e)).1]
    change Summed 0 (if cfg.fileLimit ≠ 0 then limitFiles cfg.fileLimit s.reg.length s else s)
    split
    · exact limitFiles_sum _ _ I.ok I.counted hs
    · exact hs
  | deregister f => rw [← (Prod.mk.inj (Res.ok.inj e)).1]; exact hs
  | freeAll f => rw [← (Prod.mk.inj (Res.ok.inj e)).1]; exact freeAll_sum I.ok I.counted hs f
  | append f data => rw [← (Prod.mk.inj (Res.ok.inj e)).1]; exact hs

theorem sum_run {cfg : Cfg} {D : Nat → Bytes} (hws : 2 ≤ cfg.windowSize) {h : History} {s : St} (r : Run cfg D h s) (hc : Careful D h) (hn : NoneFailed h) : Summed 0 s := by
  induction r with
  | init => rfl
  | @step h s op s' out r e ih =>
    have hn' : NoneFailed h := fun op hm => hn op (List.mem_cons_of_mem _ hm)
    refine step_sum (inv_run hws r hc.1) hws hc.2.1 (ih hc.1 hn') e fun e' => ?_
    subst e'
    exact hn op List.mem_cons_self

end Verif.Mwindow
