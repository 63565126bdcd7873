import Verif.Mwindow.Lemmas4
/-! # What holds after a careful history -/
namespace Verif.Mwindow
open Spec

theorem inv_keeps {cfg : Cfg} {D : Nat → Bytes} {h : History} {s s' : St} (I : Inv cfg D h s) (k : Keeps s s') (op : Op) (out : Out)
    (h1 : ∀ c, holding ((op, out) :: h) c = holding h c) (h2 : content D ((op, out) :: h) = content D h) :
    Inv cfg D ((op, out) :: h) s' :=
  inv_step I k.ok k.counted (by rw [k.less.data, I.data, h2]) (Grows.of_less k.less)
    fun c => Or.inl ⟨h1 c, by rw [k.less.cur]⟩

theorem step_spec {cfg : Cfg} {D : Nat → Bytes} {h : History} {s : St} (I : Inv cfg D h s) (hws : 2 ≤ cfg.windowSize) {op : Op} (hw : Wise D h op) :
    ∃ s' out, step cfg s op = .ok (s', out) ∧
      (∀ c f off extra b1 b2, op = .look c f off extra b1 b2 → out = .null → b1 = false ∧ b2 = false) ∧
      ((∀ c f off extra b1 b2, op = .look c f off extra b1 b2 → out = .null → holding h c = none) → Inv cfg D ((op, out) :: h) s') := by
  cases op with
  | look c f off extra b1 b2 =>
    obtain ⟨w1, w2, w3, w4⟩ := hw
    have hfile : ∀ w ∈ s.wins, s.cur c = some w.id → w.file = f := by
      intro w hw' hcur
      cases e : holding h c with
      | none => rw [I.idle c e] at hcur; exact nomatch hcur
      | some r =>
        obtain ⟨p, left, g, o⟩ := r
        obtain ⟨a, v, hv, a1, a2, _⟩ := I.held c p left g o e
        have : w.id = p.win := by rw [a] at hcur; exact (Option.some.inj hcur).symm
        have : w = v := unique I.ok.ids hw' hv (this.trans a1.symm)
        rw [this, a2]; exact w4 p left g o e
    obtain ⟨s', out, e1, e2⟩ := open_spec (cfg := cfg) (b1 := b1) (b2 := b2) I.ok I.counted w1 hfile (by omega) w2 (by rw [I.data]; exact w3)
    refine ⟨s', out, e1, ?_, fun hn => ?_⟩
    · intro c' f' off' extra' b1' b2' e hnull
      injection e with i1 i2 i3 i4 i5 i6
      subst i5; subst i6
      rcases e2 with l | ⟨_, _, l⟩
      · rcases l.out with ⟨_, _, _, _, e3, _⟩ | ⟨_, e3, e4, _⟩
        · rw [hnull] at e3; exact nomatch e3
        · exact ⟨e3, e4⟩
      · exact l
    · rcases e2 with l | ⟨e3, e4, _⟩
      · refine inv_step I l.ok l.counted (by rw [l.data, I.data]; rfl) l.grows fun d => ?_
        by_cases hd : c = d
        · subst hd
          right
          rcases l.out with ⟨p, left, w, hw', a1, a2, a3, a4, a5, a6, a7⟩ | ⟨a1, _, _, a4⟩
          · have hh : holding ((Op.look c f off extra b1 b2, out) :: h) c = some (p, left, f, off) := by
              rw [a1]; simp [holding]
            refine ⟨fun e => (by rw [hh] at e; exact nomatch e), fun p' left' f' off' e => ?_⟩
            rw [hh] at e
            have e := Option.some.inj e
            simp only [Prod.mk.injEq] at e
            obtain ⟨rfl, rfl, rfl, rfl⟩ := e
            exact ⟨a3, w, hw', a2, a4, a5, a6, by omega⟩
          · have hh : holding ((Op.look c f off extra b1 b2, out) :: h) c = none := by
              rw [a1]; simp [holding]
            exact ⟨fun _ => a4, fun p' left' f' off' e => (by rw [hh] at e; exact nomatch e)⟩
        · left
          refine ⟨?_, l.others d (fun e => hd e.symm)⟩
          cases out <;> simp [holding, hd]
      · exact absurd (I.idle c (hn c f off extra b1 b2 rfl e3)) e4
  | leave c =>
    obtain ⟨s', e1, ho, hc, hg, hn, hd, hoth, hcur⟩ := close_spec I.ok I.counted c cfg.windowSize
    refine ⟨s', .done, e1, fun _ _ _ _ _ _ e => (nomatch e), fun _ => inv_step I ho hc (by rw [hd, I.data]; rfl) hg fun d => ?_⟩
    by_cases e : c = d
    · subst e
      have hh : holding ((Op.leave c, Out.done) :: h) c = none := by simp [holding]
      exact Or.inr ⟨fun _ => hcur, fun p left f off e => (by rw [hh] at e; exact nomatch e)⟩
    · exact Or.inl ⟨by simp [holding, e], hoth d (fun e' => e e'.symm)⟩
  | register f =>
    refine ⟨_, _, rfl, fun _ _ _ _ _ _ e => (nomatch e), fun _ => ?_⟩
    have k : Keeps s (if cfg.fileLimit ≠ 0 then limitFiles cfg.fileLimit s.reg.length s else s) := by
      split
      · exact limitFiles_keeps _ _ I.ok I.counted
      · exact Keeps.rfl I.ok I.counted
    exact inv_keeps I (k.trans (ok_reg k.ok k.counted _)) _ _ (fun _ => rfl) rfl
  | deregister f =>
    exact ⟨_, _, rfl, fun _ _ _ _ _ _ e => (nomatch e), fun _ => inv_keeps I (ok_reg I.ok I.counted _) _ _ (fun _ => rfl) rfl⟩
  | freeAll f =>
    refine ⟨_, _, rfl, fun _ _ _ _ _ _ e => (nomatch e), fun _ => inv_keeps I (freeAll_keeps I.ok I.counted f).1 _ _ (fun _ => rfl) rfl⟩
  | append f data =>
    refine ⟨_, _, rfl, fun _ _ _ _ _ _ e => (nomatch e), fun _ => inv_step I ⟨I.ok.ids, I.ok.below, fun w hw' => ?_, I.ok.few, I.ok.live⟩ I.counted ?_
      (fun w hw' => Or.inl ⟨w, hw', Same.rfl⟩) fun c => Or.inl ⟨rfl, rfl⟩⟩
    · have hcov := I.ok.cover w hw'
      dsimp only
      by_cases e : f = w.file
      · rw [if_pos e]
        refine ⟨?_, by rw [List.length_append]; omega⟩
        rw [List.drop_append_of_le_length (by omega), List.take_append_of_le_length (by rw [List.length_drop]; omega)]
        exact hcov.1
      · rw [if_neg e]; exact hcov
    · funext g
      dsimp only
      simp only [content, ← I.data]

theorem inv_run {cfg : Cfg} {D : Nat → Bytes} (hws : 2 ≤ cfg.windowSize) {h : History} {s : St} (r : Run cfg D h s) (hc : Careful D h) : Inv cfg D h s := by
  induction r with
  | init => exact inv_init cfg D
  | step r e ih =>
    obtain ⟨c1, c2, c3⟩ := hc
    obtain ⟨s1, out1, e1, _, e3⟩ := step_spec (ih c1) hws c2
    rw [e] at e1
    have := Res.ok.inj e1
    simp only [Prod.mk.injEq] at this
    obtain ⟨rfl, rfl⟩ := this
    exact e3 c3

/-! ## Running a list of calls -/

/-- calls one after another -/
def exec (cfg : Cfg) : List Op → History → St → Res (History × St)
  | [], h, s => .ok (h, s)
  | op :: t, h, s =>
    match step cfg s op with
    | .ok (s', out) => exec cfg t ((op, out) :: h) s'
    | .err e => .err e
    | .ub => .ub

theorem exec_run {cfg : Cfg} {D : Nat → Bytes} : ∀ {ops : List Op} {h : History} {s : St}, Run cfg D h s → ∀ {h' s'}, exec cfg ops h s = .ok (h', s') → Run cfg D h' s' := by
  intro ops
  induction ops with
  | nil =>
    intro h s r h' s' e
    have := Res.ok.inj e
    simp only [Prod.mk.injEq] at this
    rw [← this.1, ← this.2]; exact r
  | cons op t ih =>
    intro h s r h' s' e
    rw [exec] at e
    cases e1 : step cfg s op with
    | ub => rw [e1] at e; exact nomatch e
    | err _ => rw [e1] at e; exact nomatch e
    | ok x =>
      obtain ⟨s1, out⟩ := x
      rw [e1] at e
      exact ih (r.step e1) e

end Verif.Mwindow
