import Verif.Mwindow.Lemmas7
/-!
# Memory windows

C78: whatever calls of any number of cursors, registrations, evictions and closings happen, the bytes that a cursor was given
stay where they are and stay those of the file until the cursor is used again.
C79: the amount of mapped memory is kept track of, and the limit is kept unless everything is in use.
C80: the limit of open files is kept in the same way; files that have been used longest ago go first.
-/
namespace Verif.Mwindow
open Spec

/-- **C78**: after any history of careful calls, a careful call does not crash, and is given nothing only if the system
refused twice to map memory. -/
theorem C78_no_crash {cfg : Cfg} {D : Nat → Bytes} {h : History} {s : St} {op : Op}
    (hws : 2 ≤ cfg.windowSize) (run : Run cfg D h s) (careful : Careful D h) (wise : Wise D h op) :
    ∃ s' out, step cfg s op = .ok (s', out) ∧
      ∀ c f off extra b1 b2, op = .look c f off extra b1 b2 → out = .null → b1 = false ∧ b2 = false := by
  obtain ⟨s', out, h1, h2, _⟩ := step_spec (inv_run hws run careful) hws wise
  exact ⟨s', out, h1, h2⟩

/-- **C78**: at any time, what a cursor holds can be read, and is what the file has at the offset it asked for. -/
theorem C78_reads {cfg : Cfg} {D : Nat → Bytes} {h : History} {s : St} {c f off left : Nat} {p : Ptr}
    (hws : 2 ≤ cfg.windowSize) (run : Run cfg D h s) (careful : Careful D h) (holds : holding h c = some (p, left, f, off)) :
    peek s p left = some (((content D h f).drop off).take left) := by
  have I := inv_run hws run careful
  obtain ⟨_, w, hw, h1, h2, h3, h4, h5⟩ := I.held c p left f off holds
  have hd : s.deref p.win = some w := by rw [← h1]; exact deref_mem I.ok.ids hw
  have hl : left ≤ w.data.length - p.delta := by rw [h4]; exact Nat.mod_le _ _
  obtain ⟨e, _⟩ := I.ok.cover w hw
  unfold peek
  rw [hd]
  dsimp only
  rw [if_pos (by omega), ← h3, ← I.data, ← h2]
  congr 1
  conv => lhs; rw [e]
  rw [List.drop_take, List.drop_drop, List.take_take, Nat.min_eq_left hl]

/-- **C78**: with windows below 4 GiB a cursor is given what it asked for, if that is at most half a window, and never more than the file has. -/
theorem C78_enough {cfg : Cfg} {D : Nat → Bytes} {h : History} {s s' : St} {c f off extra left : Nat} {b1 b2 : Bool} {p : Ptr}
    (hws : 2 ≤ cfg.windowSize) (hbig : cfg.windowSize < 2 ^ 32) (run : Run cfg D h s) (careful : Careful D h)
    (wise : Wise D h (.look c f off extra b1 b2)) (call : step cfg s (.look c f off extra b1 b2) = .ok (s', .ptr p left)) :
    min extra (cfg.windowSize / 2) ≤ left ∧ off + left ≤ (content D h f).length := by
  have I := inv_run hws run careful
  obtain ⟨t, out, h1, _, h3⟩ := step_spec I hws wise
  rw [call] at h1
  have h1 := Prod.mk.inj (Res.ok.inj h1)
  have I' := h3 (fun _ _ _ _ _ _ _ e => by rw [← h1.2] at e; exact nomatch e)
  rw [← h1.1, ← h1.2] at I'
  have hfile : ∀ w ∈ s.wins, s.cur c = some w.id → w.file = f := by
    intro w hw' hcur
    cases e : holding h c with
    | none => rw [I.idle c e] at hcur; exact nomatch hcur
    | some r =>
      obtain ⟨p, left, g, o⟩ := r
      obtain ⟨a, v, hv, a1, a2, _⟩ := I.held c p left g o e
      have : w.id = p.win := by rw [a] at hcur; exact (Option.some.inj hcur).symm
      have : w = v := unique I.ok.ids hw' hv (this.trans a1.symm)
      rw [this, a2]; exact wise.2.2.2 p left g o e
  obtain ⟨t, out, e1, e2⟩ := open_spec (cfg := cfg) (b1 := b1) (b2 := b2) I.ok I.counted wise.1 hfile (by omega) wise.2.1 (by rw [I.data]; exact wise.2.2.1)
  have e3 := Prod.mk.inj (Res.ok.inj ((show openWin cfg s c f off extra b1 b2 = _ from call).symm.trans e1))
  rcases e2 with l | ⟨l, _⟩
  · rcases l.out with ⟨p', left', w, hw, a1, a2, a3, a4, a5, a6, a7⟩ | ⟨a1, _⟩
    · rw [← e3.2] at a1
      injection a1 with a1 a1'
      subst a1; subst a1'
      rw [← e3.1] at hw
      have hsm := I'.small w hw
      have hcov := (I'.ok.cover w hw).2
      rw [I'.data, a4] at hcov
      change _ ≤ (content D h f).length at hcov
      rw [I.data] at a7
      have w3 := wise.2.2.1
      have : (w.data.length - p.delta) % 2 ^ 32 = w.data.length - p.delta := Nat.mod_eq_of_lt (by omega)
      omega
    · rw [← e3.2] at a1; exact nomatch a1
  · rw [← e3.2] at l; exact nomatch l

/-- **C79**: as long as memory could be mapped, `mapped` is the sum of the lengths of the windows. -/
theorem C79_sum {cfg : Cfg} {D : Nat → Bytes} {h : History} {s : St}
    (hws : 2 ≤ cfg.windowSize) (run : Run cfg D h s) (careful : Careful D h) (none : NoneFailed h) :
    s.mapped = total s.wins % 2 ^ 64 := sum_run hws run careful none

/-- **C79**: when a call made a window, the windows together are not larger than the limit, or all those of registered files are in use. -/
theorem C79_limit {cfg : Cfg} {D : Nat → Bytes} {h : History} {s s' : St} {c f off extra left : Nat} {b1 b2 : Bool} {p : Ptr}
    (hws : 2 ≤ cfg.windowSize) (run : Run cfg D h s) (careful : Careful D h) (none : NoneFailed h)
    (wise : Wise D h (.look c f off extra b1 b2)) (call : step cfg s (.look c f off extra b1 b2) = .ok (s', .ptr p left))
    (new : ∀ w ∈ s.wins, w.id ≠ p.win) (space : total s'.wins < 2 ^ 64) :
    total s'.wins ≤ cfg.mappedLimit ∨ ∀ w ∈ s'.wins, w.file ∈ s'.reg → ∃ d, s'.cur d = some w.id := by
  have I := inv_run hws run careful
  have hl := (open_limit I.ok I.counted (sum_run hws run careful none) wise.1 (by omega) wise.2.1 (by rw [I.data]; exact wise.2.2.1)
    (show openWin cfg s c f off extra b1 b2 = _ from call) (fun e => nomatch e)).2 p left rfl
  obtain ⟨t, out, h1, _, h3⟩ := step_spec I hws wise
  rw [call] at h1
  have h1 := Prod.mk.inj (Res.ok.inj h1)
  have I' := h3 (fun _ _ _ _ _ _ _ e => by rw [← h1.2] at e; exact nomatch e)
  rw [← h1.1, ← h1.2] at I'
  have hp : p.win = s.next := by
    obtain ⟨_, w, hw, a1, _⟩ := I'.held c p left f off (by simp [holding])
    have hg : Grows cfg.windowSize s s' := by
      have hfile : ∀ w ∈ s.wins, s.cur c = some w.id → w.file = f := by
        intro w hw' hcur
        cases e : holding h c with
        | none => rw [I.idle c e] at hcur; exact nomatch hcur
        | some r =>
          obtain ⟨p, left, g, o⟩ := r
          obtain ⟨a, v, hv, a1, a2, _⟩ := I.held c p left g o e
          have : w.id = p.win := by rw [a] at hcur; exact (Option.some.inj hcur).symm
          have : w = v := unique I.ok.ids hw' hv (this.trans a1.symm)
          rw [this, a2]; exact wise.2.2.2 p left g o e
      obtain ⟨t, out, e1, e2⟩ := open_spec (cfg := cfg) (b1 := b1) (b2 := b2) I.ok I.counted wise.1 hfile (by omega) wise.2.1 (by rw [I.data]; exact wise.2.2.1)
      have e3 := Prod.mk.inj (Res.ok.inj ((show openWin cfg s c f off extra b1 b2 = _ from call).symm.trans e1))
      rcases e2 with l | ⟨l, _⟩
      · rw [e3.1]; exact l.grows
      · rw [← e3.2] at l; exact nomatch l
    rcases hg w hw with ⟨v, hv, hs⟩ | ⟨e, _⟩
    · exact absurd (hs.id.symm.trans a1) (new v hv)
    · rw [← a1, e]
  refine (hl hp space).imp id fun hu w hw hf => ?_
  have hpos := hu w hw hf
  rw [I'.counted w hw] at hpos
  by_contra hn
  apply hpos
  rw [cnt_same (cur' := fun _ => Option.none) (fun d _ => ⟨fun e => absurd ⟨d, e⟩ hn, fun e => nomatch e⟩)]
  have : ∀ n, cnt (fun _ => Option.none) w.id n = 0 := by
    intro n; induction n with
    | zero => rfl
    | succ n ih => rw [cnt, ih, if_neg (fun e => nomatch e)]
  exact this NC

/-- a file that could be closed: it has windows, and no cursor is at one of them -/
def Unused (s : St) (g : Nat) : Prop := (∃ v ∈ s.wins, v.file = g) ∧ ∀ v ∈ s.wins, v.file = g → ∀ d, s.cur d ≠ some v.id

/-- **C80**: registering a file leaves at most as many as the limit says, or none of the others could be closed. -/
theorem C80_limit {cfg : Cfg} {D : Nat → Bytes} {h : History} {s s' : St} {f : Nat} {out : Out}
    (hws : 2 ≤ cfg.windowSize) (hlim : cfg.fileLimit ≠ 0) (run : Run cfg D h s) (careful : Careful D h)
    (call : step cfg s (.register f) = .ok (s', out)) :
    f ∈ s'.reg ∧ (s'.reg.length ≤ cfg.fileLimit ∨ ∀ g ∈ s'.reg.dropLast, ¬ Unused s' g) := by
  have I := inv_run hws run careful
  have e := (Prod.mk.inj (Res.ok.inj call)).1
  rw [if_pos hlim] at e
  have hk := limitFiles_keeps cfg.fileLimit s.reg.length I.ok I.counted
  have hc := limitFiles_closed cfg.fileLimit hlim s.reg.length (Nat.le_refl _) I.ok I.counted
  generalize limitFiles cfg.fileLimit s.reg.length s = t at e hk hc
  subst e
  refine ⟨by simp, ?_⟩
  rcases hc.2 with h1 | h1
  · left
    dsimp only
    rw [List.length_append, List.length_singleton]; omega
  · right
    intro g hg hun
    dsimp only at hg
    rw [List.dropLast_concat] at hg
    obtain ⟨⟨v, hv, hvg⟩, hn⟩ := hun
    rcases scanT_none (lruFileLoop_none h1 g hg) with h2 | ⟨u, hu, hu'⟩
    · have : v ∈ t.windows g := mem_windows.2 ⟨hv, hvg⟩
      rw [h2] at this; exact absurd this (List.not_mem_nil)
    · have hm := mem_windows.1 hu
      rw [hk.counted u hm.1] at hu'
      apply hu'
      rw [cnt_same (cur' := fun _ => Option.none) (fun d _ => ⟨fun e => absurd e (hn u hm.1 hm.2 d), fun e => nomatch e⟩)]
      have : ∀ n, cnt (fun _ => Option.none) u.id n = 0 := by
        intro n; induction n with
        | zero => rfl
        | succ n ih => rw [cnt, ih, if_neg (fun e => nomatch e)]
      exact this NC

/-- **C80**: when a window goes because a file is registered, no cursor is at it or at another window of its file, and
every file that could have been closed and was not has been used later than it. -/
theorem C80_coldest {cfg : Cfg} {D : Nat → Bytes} {h : History} {s s' : St} {f : Nat} {out : Out} {w : Win}
    (hws : 2 ≤ cfg.windowSize) (run : Run cfg D h s) (careful : Careful D h)
    (call : step cfg s (.register f) = .ok (s', out)) (had : w ∈ s.wins) (gone : w ∉ s'.wins) :
    (∀ v ∈ s.wins, v.file = w.file → ∀ d, s.cur d ≠ some v.id) ∧
    ∀ g ∈ s'.reg.dropLast, Unused s' g → ∃ v ∈ s'.wins, v.file = g ∧ w.lastUsed ≤ v.lastUsed := by
  have I := inv_run hws run careful
  have e := (Prod.mk.inj (Res.ok.inj call)).1
  by_cases hlim : cfg.fileLimit ≠ 0
  · rw [if_pos hlim] at e
    have hk := limitFiles_keeps cfg.fileLimit s.reg.length I.ok I.counted
    have hc := (limitFiles_closed cfg.fileLimit hlim s.reg.length (Nat.le_refl _) I.ok I.counted).1
    generalize limitFiles cfg.fileLimit s.reg.length s = t at e hk hc
    subst e
    refine ⟨fun v hv hvf d hd => ?_, fun g hg hun => ?_⟩
    · have h0 := hc.unused w had gone v hv hvf
      rw [I.counted v hv] at h0
      have hd' : d < NC := by
        by_contra hn
        rw [I.ok.few d (by omega)] at hd; exact nomatch hd
      have := cnt_pos hd hd'
      omega
    · dsimp only at hg
      rw [List.dropLast_concat] at hg
      refine hc.cold w had gone g hg ⟨hun.1, fun v hv hvg => ?_⟩
      rw [hk.counted v hv, cnt_same (cur' := fun _ => Option.none) (fun d _ => ⟨fun e => absurd e (hun.2 v hv hvg d), fun e => nomatch e⟩)]
      have : ∀ n, cnt (fun _ => Option.none) v.id n = 0 := by
        intro n; induction n with
        | zero => rfl
        | succ n ih => rw [cnt, ih, if_neg (fun e => nomatch e)]
      exact this NC
  · rw [if_neg hlim] at e
    subst e
    exact absurd had gone

/-! ## Cases, and what is not so -/

/-- files for the examples -/
def exFiles (f : Nat) : Bytes := if f = 0 then b!"abcdef" else if f = 1 then b!"uvwxyz" else []

/-- windows of two bytes, at most four bytes mapped -/
def exCfg : Cfg := ⟨2, 4, 1⟩

/-- a run, as a check -/
def checkExec (cfg : Cfg) (ops : List Op) (p : History → St → Bool) : Bool :=
  match exec cfg ops [] (St.init exFiles) with
  | .ok (h, s) => p h s
  | _ => false

theorem of_check {cfg : Cfg} {ops : List Op} {p : History → St → Bool} (h : checkExec cfg ops p = true) :
    ∃ hist s, Run cfg exFiles hist s ∧ exec cfg ops [] (St.init exFiles) = .ok (hist, s) ∧ p hist s = true := by
  unfold checkExec at h
  cases e : exec cfg ops [] (St.init exFiles) with
  | ub => rw [e] at h; exact nomatch h
  | err _ => rw [e] at h; exact nomatch h
  | ok r =>
    obtain ⟨a, b⟩ := r
    rw [e] at h
    exact ⟨a, b, exec_run (Run.init) e, rfl, h⟩

theorem halves {α β : Type} : ∀ l : List (α × β), l = (l.map Prod.fst).zip (l.map Prod.snd)
  | [] => rfl
  | (_, _) :: t => congrArg _ (halves t)

/-- two cursors look at one file, one of them moves on and the limit is reached -/
def exOps : List Op :=
  [.register 0, .look 0 0 0 1 true true, .look 1 0 1 1 true true, .leave 0, .look 0 0 2 1 true true, .look 2 0 4 1 false true,
   .leave 2, .append 0 b!"gh", .look 2 0 6 1 true true]

/-- the theorems speak of this history: it is careful, nothing failed, windows were closed, and all three cursors can read -/
example : ∃ h s, Run exCfg exFiles h s ∧ Careful exFiles h ∧ NoneFailed h ∧
    holding h 1 = some (⟨0, 1⟩, 1, 0, 1) ∧ peek s ⟨0, 1⟩ 1 = some b!"b" ∧ holding h 2 = some (⟨3, 0⟩, 2, 0, 6) ∧
    peek s ⟨3, 0⟩ 2 = some b!"gh" ∧ s.mapped = 6 ∧ peek s ⟨2, 0⟩ 1 = none := by
  have h := of_check (cfg := exCfg) (ops := exOps) (p := fun h s => decide (
    h.map Prod.snd = [.ptr ⟨3, 0⟩ 2, .done, .done, .ptr ⟨2, 0⟩ 2, .ptr ⟨1, 0⟩ 2, .done, .ptr ⟨0, 1⟩ 1, .ptr ⟨0, 0⟩ 2, .done] ∧
    h.map Prod.fst = exOps.reverse ∧ holding h 1 = some (⟨0, 1⟩, 1, 0, 1) ∧ peek s ⟨0, 1⟩ 1 = some b!"b" ∧ holding h 2 = some (⟨3, 0⟩, 2, 0, 6) ∧
    peek s ⟨3, 0⟩ 2 = some b!"gh" ∧ s.mapped = 6 ∧ peek s ⟨2, 0⟩ 1 = none)) (by decide +kernel)
  obtain ⟨hist, s, run, _, hp⟩ := h
  rw [decide_eq_true_eq] at hp
  obtain ⟨h1, h2, h3, h4, h5, h6, h7, h8⟩ := hp
  have hz : hist = exOps.reverse.zip [.ptr ⟨3, 0⟩ 2, .done, .done, .ptr ⟨2, 0⟩ 2, .ptr ⟨1, 0⟩ 2, .done, .ptr ⟨0, 1⟩ 1, .ptr ⟨0, 0⟩ 2, .done] := by
    rw [← h1, ← h2]; exact halves hist
  refine ⟨hist, s, run, ?_, ?_, h3, h4, h5, h6, h7, h8⟩
  · rw [hz]
    simp [exOps, Careful, Wise, content, holding, exFiles]
  · rw [hz]
    intro op
    simp [exOps]

/-- **C78** (finding): when memory cannot be mapped while the cursor is at another window, the cursor stays there although it was
counted off: the window may be freed, and `git_mwindow_close` then writes to memory that is not its own. (Inside the library every
cursor that looks at something else has been closed before.) -/
theorem C78_dangling : ∃ h s, Run exCfg exFiles h s ∧ h.map Prod.fst = [.look 0 0 4 1 false false, .look 0 0 0 1 true true, .register 0] ∧
    step exCfg s (.leave 0) = .ub := by
  have h := of_check (cfg := exCfg) (ops := [.register 0, .look 0 0 0 1 true true, .look 0 0 4 1 false false]) (p := fun h s => decide (
    h.map Prod.fst = [.look 0 0 4 1 false false, .look 0 0 0 1 true true, .register 0]) &&
    (match step exCfg s (.leave 0) with | .ub => true | _ => false)) (by decide +kernel)
  obtain ⟨hist, s, run, _, hp⟩ := h
  rw [Bool.and_eq_true, decide_eq_true_eq] at hp
  refine ⟨hist, s, run, hp.1, ?_⟩
  have := hp.2
  split at this
  · assumption
  · exact nomatch this

/-- **C78** (finding): a cursor that is at a window of one file and is used for another gets the bytes of the first. -/
theorem C78_two_files : ∃ h s, Run exCfg exFiles h s ∧ holding h 0 = some (⟨0, 1⟩, 1, 1, 1) ∧ peek s ⟨0, 1⟩ 1 = some b!"b" ∧
    ((content exFiles h 1).drop 1).take 1 = b!"v" := by
  have h := of_check (cfg := exCfg) (ops := [.look 0 0 0 1 true true, .look 0 1 1 1 true true]) (p := fun h s => decide (
    holding h 0 = some (⟨0, 1⟩, 1, 1, 1) ∧ peek s ⟨0, 1⟩ 1 = some b!"b" ∧ ((content exFiles h 1).drop 1).take 1 = b!"v")) (by decide +kernel)
  obtain ⟨hist, s, run, _, hp⟩ := h
  exact ⟨hist, s, run, by simpa using hp⟩

/-- **C79** (finding): memory that could not be mapped is counted for ever. -/
theorem C79_leak : ∃ h s, Run exCfg exFiles h s ∧ Careful exFiles h ∧ s.wins = [] ∧ s.mapped = 2 := by
  have h := of_check (cfg := exCfg) (ops := [.look 0 0 0 1 false false]) (p := fun h s => decide (
    h = [(.look 0 0 0 1 false false, .null)] ∧ s.wins = [] ∧ s.mapped = 2)) (by decide +kernel)
  obtain ⟨hist, s, run, _, hp⟩ := h
  rw [decide_eq_true_eq] at hp
  refine ⟨hist, s, run, ?_, hp.2.1, hp.2.2⟩
  rw [hp.1]
  simp [Careful, Wise, content, holding, exFiles]

/-- **C79** (finding): the window that is closed is not the one that was used least recently: -1 times a time is a huge number, so that
the last one of the list is taken. Here the window that has just been used goes and the one that was used before stays. -/
theorem C79_not_least_recent : ∃ h s s' out, Run exCfg exFiles h s ∧ Careful exFiles h ∧
    s.wins.map (fun w => (w.id, w.lastUsed, w.inuse)) = [(1, 1, 0), (0, 2, 0)] ∧
    step exCfg s (.look 2 0 4 1 true true) = .ok (s', out) ∧ s'.wins.map (fun w => (w.id, w.lastUsed)) = [(2, 3), (1, 1)] := by
  have h := of_check (cfg := exCfg) (ops := [.register 0, .look 0 0 0 1 true true, .leave 0, .look 0 0 2 1 true true, .leave 0, .look 0 0 0 1 true true, .leave 0])
    (p := fun h s => decide (h.map Prod.fst = [.leave 0, .look 0 0 0 1 true true, .leave 0, .look 0 0 2 1 true true, .leave 0, .look 0 0 0 1 true true, .register 0] ∧
      h.map Prod.snd = [.done, .ptr ⟨0, 0⟩ 2, .done, .ptr ⟨1, 0⟩ 2, .done, .ptr ⟨0, 0⟩ 2, .done] ∧
      s.wins.map (fun w => (w.id, w.lastUsed, w.inuse)) = [(1, 1, 0), (0, 2, 0)]) &&
      (match step exCfg s (.look 2 0 4 1 true true) with | .ok (s', _) => decide (s'.wins.map (fun w => (w.id, w.lastUsed)) = [(2, 3), (1, 1)]) | _ => false)) (by decide +kernel)
  obtain ⟨hist, s, run, _, hp⟩ := h
  rw [Bool.and_eq_true, decide_eq_true_eq] at hp
  obtain ⟨⟨h1, h2, h3⟩, h4⟩ := hp
  have hz : hist = [(.leave 0, .done), (.look 0 0 0 1 true true, .ptr ⟨0, 0⟩ 2), (.leave 0, .done), (.look 0 0 2 1 true true, .ptr ⟨1, 0⟩ 2),
      (.leave 0, .done), (.look 0 0 0 1 true true, .ptr ⟨0, 0⟩ 2), (.register 0, .done)] := by
    have : hist = (hist.map Prod.fst).zip (hist.map Prod.snd) := halves hist
    rw [this, h1, h2]; rfl
  split at h4
  · rename_i s' out e
    refine ⟨hist, s, s', out, run, ?_, h3, e, by simpa using h4⟩
    rw [hz]
    simp [Careful, Wise, content, holding, exFiles]
  · exact nomatch h4

/-- a file is closed when another is registered -/
example : ∃ h s s' out, Run exCfg exFiles h s ∧ s.wins.map (·.file) = [0] ∧ step exCfg s (.register 1) = .ok (s', out) ∧
    s'.wins.map (·.file) = [] ∧ s'.reg = [1] := by
  have h := of_check (cfg := exCfg) (ops := [.register 0, .look 0 0 0 1 true true, .leave 0]) (p := fun _ s =>
    decide (s.wins.map (·.file) = [0]) && (match step exCfg s (.register 1) with | .ok (s', _) => decide (s'.wins.map (·.file) = [] ∧ s'.reg = [1]) | _ => false)) (by decide +kernel)
  obtain ⟨hist, s, run, _, hp⟩ := h
  rw [Bool.and_eq_true, decide_eq_true_eq] at hp
  obtain ⟨h1, h2⟩ := hp
  split at h2
  · rename_i s' out e
    exact ⟨hist, s, s', out, run, h1, e, by simpa using h2⟩
  · exact nomatch h2

end Verif.Mwindow
