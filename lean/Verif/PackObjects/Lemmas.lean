import Verif.PackObjects.Model2
import Verif.PackObjects.Spec
import Verif.Delta.Props
import Verif.Pack.Props
/-! # The search for deltas: what holds of every object that has been looked at -/
namespace Verif.PackObjects
open Verif.Delta

theorem create_max {sd td d : Bytes} {mx : Nat} (h : create sd td mx = .ok (some d)) (hm : mx ≠ 0) : d.length + 1 < 2 ^ 64 := by
  have h1 := ((create_char sd td mx).1 d h).2.2.1 hm
  have h2 : mx < 2 ^ 32 := by
    unfold create at h
    cases hi : indexInit sd with
    | ub => rw [hi] at h; cases h
    | err e => rw [hi] at h; cases h
    | ok r =>
      rw [hi] at h
      cases r with
      | none => simp at h
      | some ix =>
        simp only [Res.bind_ok] at h
        unfold createFromIndex at h
        split at h
        · cases h
        · split at h
          · cases h
          · rename_i h3
            unfold UINT_MAX at h3
            omega
  omega

/-- every object of the list is in the database, with its type and size -/
def Listed (E : Env) (objs : List PObj) : Prop := ∀ o ∈ objs, ∃ d, E.odb o.id = some (o.type, d) ∧ d.length = o.size

theorem objAt_mem {objs : List PObj} {i : Nat} (h : i < objs.length) : objAt objs i ∈ objs := by
  unfold objAt
  rw [List.getD_eq_getElem?_getD, List.getElem?_eq_getElem h]
  exact List.getElem_mem h

/-- the bytes kept for a delta `d` -/
def Kept (E : Env) (d : Bytes) (t : DState) : Prop :=
  (t.data = none ∧ t.zsize = 0) ∨ (t.data = some d ∧ t.zsize = 0) ∨ (t.data = some (E.deflate d) ∧ t.zsize = (E.deflate d).length)

/-- a delta that makes object `i` from object `b` -/
def DeltaFor (E : Env) (objs : List PObj) (i b : Nat) (d : Bytes) : Prop :=
  b < objs.length ∧ ∃ ty sd td mx, E.odb (objAt objs b).id = some (ty, sd) ∧ E.odb (objAt objs i).id = some (ty, td) ∧ mx ≠ 0 ∧
    create sd td mx = .ok (some d)

/-- the delta of an object is right -/
def DeltaOk (E : Env) (objs : List PObj) (i : Nat) (t : DState) : Prop :=
  match t.delta with
  | none => t.data = none ∧ t.zsize = 0
  | some b => ∃ d, DeltaFor E objs i b d ∧ t.dsize = d.length ∧ Kept E d t

/-- the entries of a window are objects that have been looked at, with their depth -/
def SlotsOk (P : Nat → Prop) (dep : Nat → Nat) (slots : List (Option Slot)) : Prop :=
  ∀ s : Slot, some s ∈ slots → P s.obj ∧ s.depth = dep s.obj

/-- the state of a round -/
def CurOk (E : Env) (objs : List PObj) (P : Nat → Prop) (dep : Nat → Nat) (po depth : Nat) (slots : List (Option Slot)) (idx : Nat) (c : Cur) : Prop :=
  c.t.zsize = 0 ∧
  ((c.t.delta = none ∧ c.t.data = none ∧ c.depth = 0 ∧ c.best = none) ∨
   (∃ (m : Slot) (k : Nat) (d : Bytes), c.t.delta = some m.obj ∧ c.best = some k ∧ k ≠ idx ∧ slots[k]? = some (some m) ∧ P m.obj ∧ m.depth = dep m.obj ∧
     c.depth = m.depth + 1 ∧ c.depth ≤ depth ∧ DeltaFor E objs po m.obj d ∧ c.t.dsize = d.length ∧ (c.t.data = none ∨ c.t.data = some d)))

theorem load_ok {E : Env} {objs : List PObj} (hl : Listed E objs) {i : Nat} (hi : i < objs.length) :
    ∃ d, load E (objAt objs i) = .ok d ∧ E.odb (objAt objs i).id = some ((objAt objs i).type, d) ∧ d.length = (objAt objs i).size := by
  obtain ⟨d, h1, h2⟩ := hl _ (objAt_mem hi)
  refine ⟨d, ?_, h1, h2⟩
  unfold load
  rw [h1]
  simp only
  rw [if_pos h2]

theorem tryDelta_took {E : Env} {objs : List PObj} (hl : Listed E objs) {i b : Nat} (hi : i < objs.length) (hb : b < objs.length) {t : DState}
    {td sd md : Nat} {d : Bytes} (h : tryDelta E (objAt objs i) (objAt objs b) t td sd md = .ok (.took d)) : DeltaFor E objs i b d ∧ sd < md := by
  unfold tryDelta at h
  split at h
  · cases h
  · rename_i hty
    split at h
    · cases h
    · rename_i hmd
      split at h
      · cases h
      · cases h
      · rename_i mx _
        split at h
        · cases h
        · rename_i hmx
          split at h
          · cases h
          · split at h
            · cases h
            · obtain ⟨di, e1, e2, _⟩ := load_ok hl hi
              obtain ⟨db, e3, e4, _⟩ := load_ok hl hb
              unfold tryCreate at h
              rw [e1, e3] at h
              simp only at h
              split at h
              · cases h
              · cases h
              · cases h
              · rename_i d' hc
                split at h
                · cases h
                  refine ⟨⟨hb, _, db, di, mx, e4, ?_, hmx, hc⟩, by omega⟩
                  rw [e2]
                  simp only [ne_eq, Decidable.not_not] at hty
                  rw [hty]
                · cases h

theorem otherIdx_spec {window idx j : Nat} (hi : idx < window) (h1 : 0 < j) (h2 : j < window) : otherIdx window idx j < window ∧ otherIdx window idx j ≠ idx := by
  unfold otherIdx
  split <;> omega

theorem tryLoop_sound {E : Env} {objs : List PObj} (hl : Listed E objs) {P : Nat → Prop} {dep : Nat → Nat} (hP : ∀ i, P i → i < objs.length) {window idx po depth : Nat}
    {slots : List (Option Slot)} {cache : Nat → Bool} (hpo : po < objs.length) (hi : idx < window) (hlen : slots.length = window)
    (hs : ∀ (k : Nat) (s : Slot), k ≠ idx → slots[k]? = some (some s) → P s.obj ∧ s.depth = dep s.obj) :
    ∀ j (c c' : Cur), j < window → CurOk E objs P dep po depth slots idx c → tryLoop E objs window idx po depth slots cache j c = .ok c' →
      CurOk E objs P dep po depth slots idx c' := by
  intro j
  induction j with
  | zero => intro c c' _ hc h; unfold tryLoop at h; cases h; exact hc
  | succ j ih =>
    intro c c' hj hc h
    unfold tryLoop at h
    obtain ⟨o1, o2⟩ := otherIdx_spec hi (Nat.succ_pos j) hj
    split at h
    · cases h
    · cases h; exact hc
    · rename_i m hm
      obtain ⟨p1, p2⟩ := hs _ m o2 hm
      split at h
      · cases h
      · cases h
      · cases h; exact hc
      · exact ih _ _ (by omega) hc h
      · rename_i d hd
        refine ih _ _ (by omega) ?_ h
        obtain ⟨q1, q2⟩ := tryDelta_took hl hpo (hP _ p1) hd
        refine ⟨hc.1, .inr ⟨m, _, d, rfl, rfl, o2, hm, p1, p2, rfl, ?_, q1, rfl, ?_⟩⟩
        · show m.depth + 1 ≤ depth
          omega
        · unfold took
          cases cache (j + 1)
          · exact .inl rfl
          · exact .inr rfl

theorem mem_set_cases {α : Type} {l : List α} {k : Nat} {a x : α} (h : x ∈ l.set k a) : x ∈ l ∨ x = a := by
  rcases List.mem_or_eq_of_mem_set h with h | h
  · exact .inl h
  · exact .inr h

theorem evict_spec (window idx : Nat) : ∀ (k count : Nat) (slots : List (Option Slot)),
    (evict window idx k count slots).1 ≤ count ∧ (evict window idx k count slots).2.length = slots.length ∧
    (∀ s : Slot, some s ∈ (evict window idx k count slots).2 → some s ∈ slots) ∧
    (∀ (i : Nat) (s : Slot), (evict window idx k count slots).2[i]? = some (some s) → slots[i]? = some (some s)) := by
  intro k
  induction k with
  | zero => intro count slots; exact ⟨Nat.le_refl _, rfl, fun _ h => h, fun _ _ h => h⟩
  | succ k ih =>
    intro count slots
    unfold evict
    split
    · obtain ⟨h1, h2, h3, h4⟩ := ih (count - 1) (slots.set ((idx + window - count) % window) none)
      refine ⟨by omega, by rw [h2, List.length_set], fun s hs => ?_, fun i s hs => ?_⟩
      · rcases mem_set_cases (h3 s hs) with h | h
        · exact h
        · cases h
      · have := h4 i s hs
        rw [List.getElem?_set] at this
        split at this
        · split at this
          · cases this
          · cases this
        · exact this
    · exact ⟨Nat.le_refl _, rfl, fun _ h => h, fun _ _ h => h⟩

theorem opened_spec {window po ev : Nat} {w : Win} {P : Nat → Prop} {dep : Nat → Nat} (hs : SlotsOk P dep w.slots) :
    (opened window po ev w).slots.length = w.slots.length ∧ (opened window po ev w).idx = w.idx ∧ (opened window po ev w).count ≤ w.count ∧
    (∀ s : Slot, some s ∈ (opened window po ev w).slots → (P s.obj ∧ s.depth = dep s.obj) ∨ s = ⟨po, 0⟩) ∧
    (∀ (k : Nat) (s : Slot), k ≠ w.idx → (opened window po ev w).slots[k]? = some (some s) → P s.obj ∧ s.depth = dep s.obj) := by
  unfold opened
  dsimp only
  obtain ⟨h1, h2, h3, h4⟩ := evict_spec window w.idx ev w.count (w.slots.set w.idx (some ⟨po, 0⟩))
  refine ⟨by rw [h2, List.length_set], rfl, h1, fun s h => ?_, fun k s hk h => ?_⟩
  · rcases mem_set_cases (h3 s h) with h | h
    · exact .inl (hs s h)
    · cases h; exact .inr rfl
  · have := h4 k s h
    rw [List.getElem?_set, if_neg (Ne.symm hk)] at this
    exact hs s (List.mem_of_getElem? this)

theorem rotateLoop_spec (window : Nat) (swap : Option Slot) : ∀ (dist dst : Nat) (slots out : List (Option Slot)),
    rotateLoop window swap dist dst slots = .ok out → out.length = slots.length ∧ ∀ x ∈ out, x ∈ slots ∨ x = swap := by
  intro dist
  induction dist with
  | zero =>
    intro dst slots out h
    unfold rotateLoop at h
    split at h
    · cases h
      exact ⟨List.length_set, fun x hx => mem_set_cases hx⟩
    · cases h
  | succ dist ih =>
    intro dst slots out h
    unfold rotateLoop at h
    split at h
    · cases h
    · rename_i s hs
      split at h
      · obtain ⟨h1, h2⟩ := ih _ _ _ h
        refine ⟨by rw [h1, List.length_set], fun x hx => ?_⟩
        rcases h2 x hx with h | h
        · rcases mem_set_cases h with h | h
          · exact .inl h
          · exact .inl (h ▸ List.mem_of_getElem? hs)
        · exact .inr h
      · cases h

theorem rotate_spec {window idx : Nat} {best : Option Nat} {slots out : List (Option Slot)} (h : rotate window idx best slots = .ok out) :
    out.length = slots.length ∧ ∀ x ∈ out, x ∈ slots := by
  unfold rotate at h
  split at h
  · cases h
  · split at h
    · cases h
    · rename_i swap hsw
      obtain ⟨h1, h2⟩ := rotateLoop_spec _ _ _ _ _ _ h
      refine ⟨h1, fun x hx => ?_⟩
      rcases h2 x hx with h | h
      · exact h
      · exact h ▸ List.mem_of_getElem? hsw

theorem compress_spec {E : Env} {t t' : DState} (h : compress E t = .ok t') :
    t'.delta = t.delta ∧ t'.dsize = t.dsize ∧ ((t.data = none ∧ t' = t) ∨
      ∃ d, t.data = some d ∧ t.dsize ≤ d.length ∧ t'.data = some (E.deflate (d.take t.dsize)) ∧ t'.zsize = (E.deflate (d.take t.dsize)).length) := by
  unfold compress at h
  split at h
  · rename_i hd; cases h; exact ⟨rfl, rfl, .inl ⟨hd, rfl⟩⟩
  · rename_i d hd
    unfold slice at h
    split at h
    · cases h
    · cases h
    · rename_i b hb
      split at hb
      · rename_i hle
        cases hb
        cases h
        refine ⟨rfl, rfl, .inr ⟨d, hd, by omega, ?_, ?_⟩⟩ <;> simp
      · cases hb

theorem curOk_deltaOk {E : Env} {objs : List PObj} {P : Nat → Prop} {dep : Nat → Nat} {po depth : Nat} {slots : List (Option Slot)} {idx : Nat} {c : Cur}
    (h : CurOk E objs P dep po depth slots idx c) : DeltaOk E objs po c.t := by
  obtain ⟨hz, h | ⟨m, k, d, h1, h2, h3, h4, h5, h6, h7, h8, h9, h10, h11⟩⟩ := h
  · unfold DeltaOk
    rw [h.1]
    exact ⟨h.2.1, hz⟩
  · unfold DeltaOk
    rw [h1]
    refine ⟨d, h9, h10, ?_⟩
    rcases h11 with h | h
    · exact .inl ⟨h, hz⟩
    · exact .inr (.inl ⟨h, hz⟩)

theorem compress_deltaOk {E : Env} {objs : List PObj} {P : Nat → Prop} {dep : Nat → Nat} {po depth : Nat} {slots : List (Option Slot)} {idx : Nat} {c : Cur} {t' : DState}
    (h : CurOk E objs P dep po depth slots idx c) (hc : compress E c.t = .ok t') : DeltaOk E objs po t' := by
  have h0 := curOk_deltaOk h
  obtain ⟨e1, e2, ⟨_, rfl⟩ | ⟨d', f1, f2, f3, f4⟩⟩ := compress_spec hc
  · exact h0
  · obtain ⟨hz, h | ⟨m, k, d, h1, h2, h3, h4, h5, h6, h7, h8, h9, h10, h11⟩⟩ := h
    · rw [h.2.1] at f1; cases f1
    · rcases h11 with h | h
      · rw [h] at f1; cases f1
      · rw [h] at f1; cases f1
        unfold DeltaOk
        rw [e1, h1]
        refine ⟨d', h9, by rw [e2, h10], .inr (.inr ?_)⟩
        rw [h10, List.take_length] at f3 f4
        exact ⟨f3, f4⟩

/-- the window after a round -/
theorem place_spec {window depth po : Nat} {w w' : Win} {c : Cur} {P : Nat → Prop} {dep : Nat → Nat} (hlen : w.slots.length = window) (hidx : w.idx < window)
    (hcount : w.count < window) (hs : ∀ (s : Slot), some s ∈ w.slots → (P s.obj ∧ s.depth = dep s.obj) ∨ s = ⟨po, 0⟩)
    (hs' : ∀ (k : Nat) (s : Slot), k ≠ w.idx → w.slots[k]? = some (some s) → P s.obj ∧ s.depth = dep s.obj)
    (h : place window depth po w c = .ok w') : w'.slots.length = window ∧ w'.idx < window ∧ w'.count < window ∧
      ∀ s : Slot, some s ∈ w'.slots → (P s.obj ∧ s.depth = dep s.obj) ∨ s = ⟨po, c.depth⟩ := by
  have key : ∀ s : Slot, some s ∈ w.slots.set w.idx (some ⟨po, c.depth⟩) → (P s.obj ∧ s.depth = dep s.obj) ∨ s = ⟨po, c.depth⟩ := by
    intro s h
    obtain ⟨k, hk⟩ := List.mem_iff_getElem?.mp h
    rw [List.getElem?_set] at hk
    split at hk
    · split at hk
      · cases hk; exact .inr rfl
      · cases hk
    · rename_i hne
      exact .inl (hs' k s (fun e => hne e.symm) hk)
  have adv : ∀ slots : List (Option Slot), slots.length = window → (∀ s : Slot, some s ∈ slots → (P s.obj ∧ s.depth = dep s.obj) ∨ s = ⟨po, c.depth⟩) →
      (advance window w.idx w.count slots).slots.length = window ∧ (advance window w.idx w.count slots).idx < window ∧
      (advance window w.idx w.count slots).count < window ∧
      ∀ s : Slot, some s ∈ (advance window w.idx w.count slots).slots → (P s.obj ∧ s.depth = dep s.obj) ∨ s = ⟨po, c.depth⟩ := by
    intro slots h1 h2
    unfold advance
    refine ⟨h1, ?_, ?_, h2⟩
    · dsimp only; split <;> omega
    · dsimp only; split <;> omega
  unfold place at h
  dsimp only at h
  split at h
  · cases h
    exact ⟨by simp [hlen], hidx, hcount, key⟩
  · split at h
    · split at h
      · cases h
      · cases h
      · rename_i slots hr
        cases h
        obtain ⟨r1, r2⟩ := rotate_spec hr
        exact adv slots (by rw [r1, List.length_set, hlen]) fun s hs => key s (r2 _ hs)
    · cases h
      exact adv _ (by rw [List.length_set, hlen]) key

end Verif.PackObjects
