import Verif.Mwindow.Lemmas
/-! # Opening and closing -/
namespace Verif.Mwindow
open Spec

/-- the same window, but for its counts -/
structure Same (w w' : Win) : Prop where
  id : w'.id = w.id
  file : w'.file = w.file
  off : w'.off = w.off
  data : w'.data = w.data

theorem Same.rfl {w : Win} : Same w w := ⟨by rfl, by rfl, by rfl, by rfl⟩

theorem Same.trans {a b c : Win} (h : Same a b) (h' : Same b c) : Same a c :=
  ⟨h'.id.trans h.id, h'.file.trans h.file, h'.off.trans h.off, h'.data.trans h.data⟩

/-- every window was there before, or is the next one and not larger than `W` -/
def Grows (W : Nat) (s s' : St) : Prop :=
  ∀ w' ∈ s'.wins, (∃ w ∈ s.wins, Same w w') ∨ (w'.id = s.next ∧ w'.data.length ≤ W)

theorem Grows.of_less {W : Nat} {s s' : St} (h : Less s s') : Grows W s s' := fun w hw => Or.inl ⟨w, h.sub w hw, Same.rfl⟩

theorem mem_change {s : St} {i : Nat} {g : Win → Win} {w' : Win} :
    w' ∈ (s.change i g).wins ↔ ∃ w ∈ s.wins, w' = if w.id = i then g w else w := by
  simp only [St.change, List.mem_map]
  exact ⟨fun ⟨w, hw, e⟩ => ⟨w, hw, e.symm⟩, fun ⟨w, hw, e⟩ => ⟨w, hw, e.symm⟩⟩

theorem change_ids {s : St} {i : Nat} {g : Win → Win} (hg : ∀ w, (g w).id = w.id) :
    (s.change i g).wins.map (·.id) = s.wins.map (·.id) := by
  simp only [St.change, List.map_map]
  apply List.map_congr_left
  intro w _
  simp only [Function.comp_apply]
  split
  · exact hg w
  · rfl

/-- changing the counts of a window, and the pointer of one cursor to one that is there, leaves a state in order -/
theorem ok_change {s : St} (h : Ok s) {i : Nat} {g : Win → Win} (hg : ∀ w, Same w (g w)) (c : Nat) (v : Option Nat) (n : Nat)
    (hc : c < NC) (hv : ∀ j, v = some j → ∃ w ∈ s.wins, w.id = j) :
    Ok { s.change i g with usedCtr := n, cur := fun d => if d = c then v else s.cur d } := by
  have hs : ∀ w, Same w (if w.id = i then g w else w) := fun w => by
    split
    · exact hg w
    · exact Same.rfl
  refine ⟨?_, ?_, ?_, ?_, ?_⟩
  · change ((s.change i g).wins.map (·.id)).Nodup
    rw [change_ids fun w => (hg w).id]; exact h.ids
  · intro w' hw'
    obtain ⟨w, hw, rfl⟩ := mem_change.1 hw'
    rw [(hs w).id]; exact h.below w hw
  · intro w' hw'
    obtain ⟨w, hw, rfl⟩ := mem_change.1 hw'
    rw [(hs w).data, (hs w).file, (hs w).off]; exact h.cover w hw
  · intro d hd
    change (if d = c then v else s.cur d) = none
    rw [if_neg (by omega)]; exact h.few d hd
  · intro d j hd
    change (if d = c then v else s.cur d) = some j at hd
    have : ∃ w ∈ s.wins, w.id = j := by
      by_cases e : d = c
      · rw [if_pos e] at hd; exact hv j hd
      · rw [if_neg e] at hd; exact h.live d j hd
    obtain ⟨w, hw, e⟩ := this
    exact ⟨_, mem_change.2 ⟨w, hw, rfl⟩, by rw [(hs w).id]; exact e⟩

theorem grows_change {W : Nat} {s : St} {i : Nat} {g : Win → Win} (hg : ∀ w, Same w (g w)) (k : Nat → Option Nat) (n : Nat) :
    Grows W s { s.change i g with usedCtr := n, cur := k } := by
  intro w' hw'
  obtain ⟨w, hw, rfl⟩ := mem_change.1 hw'
  refine Or.inl ⟨w, hw, ?_⟩
  split
  · exact hg w
  · exact Same.rfl

/-- a cursor that is not at a window comes to it -/
theorem enter {s : St} (h : Ok s) (hc : Counted s) {c : Nat} (hcN : c < NC) (hn : s.cur c = none) {w : Win} (hw : w ∈ s.wins) (u n : Nat) :
    Ok { s.change w.id (fun v => { v with lastUsed := u, inuse := add64 v.inuse 1 }) with
      usedCtr := n, cur := fun d => if d = c then some w.id else s.cur d } ∧
    Counted { s.change w.id (fun v => { v with lastUsed := u, inuse := add64 v.inuse 1 }) with
      usedCtr := n, cur := fun d => if d = c then some w.id else s.cur d } := by
  refine ⟨ok_change h (g := fun v => { v with lastUsed := u, inuse := add64 v.inuse 1 }) (fun _ => ⟨rfl, rfl, rfl, rfl⟩) c (some w.id) n hcN
    (fun j hj => ⟨w, hw, Option.some.inj hj⟩), fun w' hw' => ?_⟩
  obtain ⟨v, hv, rfl⟩ := mem_change.1 hw'
  have hu := cnt_update s.cur v.id c (some w.id) NC hcN
  rw [hn] at hu
  have ho : one none v.id = 0 := rfl
  rw [ho] at hu
  have hle := cnt_le (fun d => if d = c then some w.id else s.cur d) v.id NC
  by_cases e : v.id = w.id
  · simp only [if_pos e]
    have : one (some w.id) v.id = 1 := by unfold one; rw [if_pos (by rw [e])]
    rw [this] at hu
    change add64 v.inuse 1 = _
    rw [hc v hv, add64]
    have hN : NC = 18446744073709551615 := rfl
    omega
  · simp only [if_neg e]
    have : one (some w.id) v.id = 0 := by
      unfold one; rw [if_neg (fun e' => e (Option.some.inj e').symm)]
    rw [this] at hu
    change v.inuse = _
    rw [hc v hv]
    omega

/-- a cursor leaves its window -/
theorem depart {s : St} (h : Ok s) (hc : Counted s) {c i : Nat} (hi : s.cur c = some i) :
    Ok { s.change i (fun v => { v with inuse := sub64 v.inuse 1 }) with cur := fun d => if d = c then none else s.cur d } ∧
    Counted { s.change i (fun v => { v with inuse := sub64 v.inuse 1 }) with cur := fun d => if d = c then none else s.cur d } := by
  have hcN : c < NC := by
    by_contra hn
    rw [h.few c (by omega)] at hi; exact nomatch hi
  refine ⟨ok_change h (g := fun v => { v with inuse := sub64 v.inuse 1 }) (fun _ => ⟨rfl, rfl, rfl, rfl⟩) c none s.usedCtr hcN
    (fun j hj => nomatch hj), fun w' hw' => ?_⟩
  obtain ⟨v, hv, rfl⟩ := mem_change.1 hw'
  have hu := cnt_update s.cur v.id c none NC hcN
  have ho : one none v.id = 0 := rfl
  rw [ho] at hu
  have hle := cnt_le s.cur v.id NC
  by_cases e : v.id = i
  · simp only [if_pos e]
    have : one (s.cur c) v.id = 1 := by unfold one; rw [if_pos (by rw [hi, e])]
    rw [this] at hu
    change sub64 v.inuse 1 = _
    rw [hc v hv, sub64]
    have hN : NC = 18446744073709551615 := rfl
    omega
  · simp only [if_neg e]
    have : one (s.cur c) v.id = 0 := by
      unfold one; rw [hi, if_neg (fun e' => e (Option.some.inj e').symm)]
    rw [this] at hu
    change v.inuse = _
    rw [hc v hv]
    omega

/-! ## A new window -/

theorem windowOff_le (ws off : Nat) : off / (ws / 2) * (ws / 2) ≤ off := Nat.div_mul_le_self _ _

theorem windowOff_near {ws off : Nat} (h : ws / 2 ≠ 0) : off < off / (ws / 2) * (ws / 2) + ws / 2 := by
  have := Nat.lt_div_mul_add (a := off) (b := ws / 2) (by omega)
  omega

theorem freshWin_len (cfg : Cfg) (s : St) (f off : Nat) :
    (freshWin cfg s f off).data.length = min cfg.windowSize ((s.data f).length - (freshWin cfg s f off).off) := by
  simp [freshWin]

/-- the state with a fresh window is in order -/
theorem ok_cons {cfg : Cfg} {s s' : St} {f off : Nat} (h : Less s s') (hn : s.next < s'.next ∨ s'.next = s.next)
    (ho : Ok s') (hc : Counted s') (hlt : off < (s.data f).length) (n : Nat)
    (hb : ∀ w ∈ s.wins, w.id < s.next) (hl : ∀ c i, s.cur c = some i → i < s.next) (hnn : s'.next ≤ n ∧ s.next < n) :
    Ok { s' with wins := freshWin cfg s f off :: s'.wins, next := n } ∧
    Counted { s' with wins := freshWin cfg s f off :: s'.wins, next := n } := by
  have hoff : (freshWin cfg s f off).off ≤ off := windowOff_le _ _
  refine ⟨⟨?_, ?_, ?_, ho.few, ?_⟩, ?_⟩
  · change (((freshWin cfg s f off) :: s'.wins).map (·.id)).Nodup
    rw [List.map_cons, List.nodup_cons]
    refine ⟨fun hm => ?_, ho.ids⟩
    obtain ⟨w, hw, e⟩ := List.mem_map.1 hm
    have := hb w (h.sub w hw)
    have e' : (freshWin cfg s f off).id = s.next := rfl
    omega
  · intro w hw
    rcases List.mem_cons.1 hw with rfl | hw
    · exact hnn.2
    · have := ho.below w hw
      change w.id < n
      omega
  · intro w hw
    rcases List.mem_cons.1 hw with rfl | hw
    · have hl' := freshWin_len cfg s f off
      change _ = ((s'.data f).drop _).take _ ∧ _ ≤ (s'.data f).length
      rw [h.data]
      refine ⟨?_, by omega⟩
      change ((s.data f).drop (freshWin cfg s f off).off).take cfg.windowSize = _
      rw [List.take_eq_take_iff, List.length_drop, hl']
      omega
    · exact ho.cover w hw
  · intro c i hci
    obtain ⟨w, hw, e⟩ := ho.live c i hci
    exact ⟨w, List.mem_cons_of_mem _ hw, e⟩
  · intro w hw
    rcases List.mem_cons.1 hw with rfl | hw
    · have : cnt s'.cur (freshWin cfg s f off).id NC = 0 := by
        rw [cnt_same (cur' := fun _ => none)]
        · have : ∀ n, cnt (fun _ => none) (freshWin cfg s f off).id n = 0 := by
            intro n; induction n with
            | zero => rfl
            | succ n ih => rw [cnt, ih, if_neg (fun e => nomatch e)]
          exact this NC
        · intro c _
          rw [h.cur]
          refine ⟨fun e => ?_, fun e => nomatch e⟩
          have := hl c _ e
          have e' : (freshWin cfg s f off).id = s.next := rfl
          omega
      exact this.symm
    · exact hc w hw

end Verif.Mwindow
