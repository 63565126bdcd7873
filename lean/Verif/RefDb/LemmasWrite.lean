import Verif.RefDb.LemmasGuar
/-! # A writer keeps the guarantee -/
namespace Verif.RefDb
open Verif.Conc Verif.FileBuf Verif.RefPacked

variable {size : Nat} {tasks : Pid → Task} {rd : Bool} {p : Pid}

/-- the events of `p` so far -/
abbrev Evs (p : Pid) (l : List Event) (s : FS) : Prop := ev p s = l

theorem Evs.stable (l : List Event) : Stable (Chg size tasks) p (Evs p l) := by
  rintro a b _ h ⟨q, hq, hb, _⟩
  show ev p b = l
  rw [ev_other (Ne.symm hq) a b hb]; exact h

theorem ev_log {s s' : FS} (h : s'.log = s.log) : ev p s' = ev p s := by unfold ev; rw [h]

theorem Evs.lockStep (l : List Event) (t : Path) : LockStep (Chg size tasks) p (Evs p l) t :=
  lockStep_of fun s s' _ h _ _ hl => (ev_log hl).trans h

/-- as long as the lock of `n` is this one, `n` has the value `v` -/
structure Keeps (size : Nat) (p : Pid) (n : Path) (i : Ino) (v : Res RefVal) (l : List Event) (s : FS) : Prop where
  lt : i < s.next
  value : Hold p n i s → val size s n = v
  evs : ev p s = l

theorem Keeps.stable {n : Path} (hn : RefName n) {i : Ino} {v : Res RefVal} {l : List Event} : Stable (Chg size tasks) p (Keeps size p n i v l) := by
  rintro a b hw h ⟨q, hq, hb, hc⟩
  refine ⟨Nat.lt_of_lt_of_le h.lt hb.next_le, ?_, by rw [ev_other (Ne.symm hq) a b hb]; exact h.evs⟩
  intro hh
  have ha : Hold p n i a := by
    have ho : a.owner i = some p := by rw [← hb.owner_old i h.lt]; exact hh.2
    refine ⟨?_, ho⟩
    rcases hb.lock n with e | ⟨_, j, e, h1, _⟩ | ⟨e, _⟩
    · rw [← e]; exact hh.1
    · rw [hh.1] at e; cases e; exact absurd h.lt (Nat.not_lt.mpr h1)
    · rw [hh.1] at e; cases e
  rw [val_held hq hn hc ha]; exact h.value ha

theorem Keeps.lockStep {n : Path} (hn : RefName n) {i : Ino} {v : Res RefVal} {l : List Event} (t : Path) :
    LockStep (Chg size tasks) p (Keeps size p n i v l) t := by
  refine lockStep_of fun s s' hw h hb hd hl => ⟨Nat.lt_of_lt_of_le h.lt hb.next_le, ?_, by rw [ev_log hl]; exact h.evs⟩
  intro hh
  have ha : Hold p n i s := by
    have ho : s.owner i = some p := by rw [← hb.owner_old i h.lt]; exact hh.2
    refine ⟨?_, ho⟩
    rcases hb.lock n with e | ⟨_, j, e, h1, _⟩ | ⟨e, _⟩
    · rw [← e]; exact hh.1
    · rw [hh.1] at e; cases e; exact absurd h.lt (Nat.not_lt.mpr h1)
    · rw [hh.1] at e; cases e
  rw [val_same (s := s) (hb.content_same hn.lock (hd n (ne_lockPath hn.lock))) (hb.content_same packed_not_lock (hd _ (ne_lockPath packed_not_lock)))]
  exact h.value ha

theorem _root_.Verif.FileBuf.JH.weaken {J J' : FS → Prop} {t : Path} {i : Ino} {d : Bytes} {c : Option Bytes} {s : FS} (h : JH J p t i d c s) (hj : J s → J' s) :
    JH J' p t i d c s := ⟨h.wf, hj h.j, h.hold, h.data, h.content⟩

theorem _root_.Verif.FileBuf.JW.weaken {J J' : FS → Prop} {t : Path} {i : Ino} {c : Option Bytes} {f : FB} {m : Bytes} {s : FS} (h : JW J p t i c f m s) (hj : J s → J' s) :
    JW J' p t i c f m s := by
  obtain ⟨d, h1, h2⟩ := h
  exact ⟨d, h1.weaken hj, h2⟩

theorem bail_ok {l : List Event} {n : Path} (hn : ¬ IsLock n) (f : FB) (hf : f.path = n) (e : Int) (post : Int → FS → Prop)
    (hpost : ∀ s, Evs p l s → post e s) {i : Ino} {c : Option Bytes} {d : Bytes} {s : FS} (h : JH (Evs p l) p n i d c s) :
    OkP (Chg size tasks) rd p post (bail f e) s := by
  unfold bail
  refine Ok.bind (cleanup_lock (Evs.stable l) hn (Evs.lockStep l n) f hf _ ?_ ⟨d, h⟩)
  intro s h
  exact Ok.retI _ h (J0.stable (Evs.stable l)) (fun s h => hpost s h.2)

/-- what a writer has done when it returns -/
def PostW (p : Pid) (n : Path) (r : Int) (s : FS) : Prop :=
  (r = 0 → ev p s = [.placed n] ∨ ev p s = [.same n]) ∧ (r ≠ 0 → ev p s = [])

theorem content_moved {t : Path} {i : Ino} {s : FS} (ht : ¬ IsLock t) (x : Path) (hx : ¬ IsLock x) :
    (moved p t i s).content x = if x = t then some (s.data i) else s.content x := by
  unfold FS.content moved
  by_cases h : x = t
  · subst h; simp [upd_same]
  · simp only [h, if_false]
    rw [upd_ne _ _ h, upd_ne _ _ (ne_lockPath hx)]

theorem looseCommit_ok (hs : 0 < size) {j : WriteJob} (ht : tasks p = .write j) (hv : (tasks p).Valid size) {i : Ino} {c : Option Bytes} {v : Res RefVal}
    (hm : Matches size j.oldId j.oldTarget v) (f : FB) (hf : Owns f j.name j.opts i) {s : FS}
    (h : JW (Keeps size p j.name i v []) p j.name i c f [] s) :
    OkP (Chg size tasks) rd p (PostW p j.name) (looseCommit size f j.value) s := by
  rw [ht] at hv
  obtain ⟨hn, hval, hnb, _⟩ := hv
  obtain ⟨txt, htxt, hparse⟩ := looseText_parse hs j.value hval
  unfold looseCommit
  rw [htxt]
  simp only
  refine Ok.bind (fbPrintf_ok (Keeps.stable hn) (Keeps.lockStep hn j.name).quiet hn.lock f hf txt [] hnb _ ?_ h)
  intro r f' s1 hf' _ _ _ h1
  simp only [List.nil_append] at h1 ⊢
  refine fbCommit_ok (J' := Evs p [.placed j.name]) (Keeps.stable hn) (Evs.stable _) hn.lock (Keeps.lockStep hn j.name) (Evs.lockStep _ j.name).quiet
    f' hf' txt ?_ _ ?_ ?_ h1
  · intro s h _ hb
    have hcur := h.j.value h.hold
    have hmv := content_moved (p := p) (t := j.name) (i := i) (s := s) hn.lock
    have hpk : (moved p j.name i s).content packedRefs = s.content packedRefs := by
      rw [hmv _ packed_not_lock, if_neg (fun e => hn.packed e.symm)]
    have hnew : val size (moved p j.name i s) j.name = .ok j.value := by
      unfold val
      rw [hmv _ hn.lock, if_pos rfl, h.data]
      exact hparse
    have hev : ev p (moved p j.name i s) = [.placed j.name] := by
      have : ev p (moved p j.name i s) = ev p s ++ [.placed j.name] := ev_append p s _ [_] rfl
      rw [this, h.j.evs]; rfl
    have hoth : ∀ n, RefName n → n ≠ j.name → val size (moved p j.name i s) n = val size s n := by
      intro n hn' hne
      exact val_same (by rw [hmv _ hn'.lock, if_neg hne]) hpk
    refine ⟨⟨?_, ?_, ?_, ?_, fun h => absurd ht (h j), ?_⟩, hev⟩
    · intro n hn'
      by_cases hne : n = j.name
      · subst hne
        right
        refine ⟨⟨i, h.hold⟩, ?_⟩
        rw [ht]
        exact ⟨rfl, by rw [hcur]; exact hm, hnew⟩
      · exact .inl (hoth n hn' hne)
    · intro _ x hx hx0
      rw [hmv _ hx] at hx0
      split at hx0
      · cases hx0
      · exact hx0
    · intro _; exact hpk
    · refine .inr ⟨.placed j.name, rfl, ?_⟩
      rw [ht]
      exact ⟨rfl, by rw [hcur]; exact hm, hnew⟩
    · intro j' hj' hl
      rw [ht] at hj'
      cases hj'
      exact absurd rfl hl
  · intro s h
    exact ⟨fun e => (by cases e), fun _ => h.2.evs⟩
  · intro s h
    exact ⟨fun _ => .inl h.2, fun e => absurd rfl e⟩

theorem writer_ok (hs : 0 < size) {j : WriteJob} (ht : tasks p = .write j) (hv : (tasks p).Valid size) {s : FS} (h : WF s ∧ ev p s = []) :
    OkP (Chg size tasks) rd p (PostW p j.name) (j.run size) s := by
  have hv' := hv
  rw [ht] at hv'
  obtain ⟨hn, hval, hnb, hap⟩ := hv'
  unfold WriteJob.run
  refine Ok.bind (fbOpen_ok (Evs.stable []) hn.lock (Evs.lockStep [] _) j.opts _ ?_ ?_ h)
  · intro r f s hr h
    simp only
    rw [if_pos hr]
    exact Ok.retI _ h (J0.stable (Evs.stable [])) (fun s h => ⟨fun e => by omega, fun _ => h.2⟩)
  · intro f i c s hf hbuf hle hopen h
    simp only
    rw [if_neg (by decide)]
    have h0 : JH (Keeps size p j.name i (val size s j.name) []) p j.name i [] c s := by
      refine ⟨h.wf, ⟨h.wf.bound _ _ h.hold.1, fun _ => rfl, h.j⟩, h.hold, ?_, h.content⟩
      have := h.data
      unfold initial at this
      rw [hap] at this
      simpa using this
    generalize val size s j.name = v at h0
    have hb : ∀ (e : Int) (s : FS), e ≠ 0 → JH (Keeps size p j.name i v []) p j.name i [] c s →
        OkP (Chg size tasks) rd p (PostW p j.name) (bail f e) s := by
      intro e s he h
      exact bail_ok hn.lock f hf.path e _ (fun s h => ⟨fun e' => absurd e' he, fun _ => h⟩) (h.weaken (·.evs))
    unfold writeTail
    refine Ok.bind (cmpOldRef_ok (Keeps.stable hn) (Keeps.lockStep hn j.name).quiet hn.lock (fun s h hh => h.value hh) j.oldId j.oldTarget _ ?_ h0)
    intro r s1 hr1 hr2 hneg h1
    cases r with
    | ub => exact hb _ _ (by decide) h1
    | err e => exact hb _ _ (by have := hneg e rfl; omega) h1
    | ok b =>
      cases b with
      | false => exact hb _ _ (by decide) h1
      | true =>
        have hm := hr1 rfl
        simp only
        unfold writeNew
        refine Ok.bind (cmpOldRef_ok (Keeps.stable hn) (Keeps.lockStep hn j.name).quiet hn.lock (fun s h hh => h.value hh) j.value.id? j.value.target? _ ?_ h1)
        intro r s2 hr3 hr4 hneg h2
        have hcommit : ∀ s, JH (Keeps size p j.name i v []) p j.name i [] c s →
            OkP (Chg size tasks) rd p (PostW p j.name) (if j.reflogOk then looseCommit size f j.value else bail f (-1)) s := by
          intro s h
          split
          · exact looseCommit_ok hs ht hv hm f hf ⟨[], h, fun _ => by rw [hbuf]; rfl⟩
          · exact hb _ _ (by decide) h
        cases r with
        | ub => exact hb _ _ (by decide) h2
        | err e =>
          simp only
          split
          · exact hcommit _ h2
          · exact hb _ _ (by have := hneg e rfl; omega) h2
        | ok b =>
          cases b with
          | false => exact hcommit _ h2
          | true =>
            have hm2 := hr3 rfl
            refine Ok.cmd _ h2 (JH.stable hn.lock (Keeps.stable hn)) ?_
            intro s3 h3 r3 s4 he
            have he : s4 = { s3 with log := s3.log ++ [(p, .same j.name)] } := he
            have hbs := Base.event p (.same j.name) s3
            rw [← he] at hbs
            have hcur := h3.j.value h3.hold
            have hev : ev p s4 = [.same j.name] := by
              rw [he, ev_event, h3.j.evs]; rfl
            refine ⟨⟨hbs, Chg.inert hbs (fun x _ => by rw [he]) (.inr ⟨.same j.name, by rw [he], ?_⟩)⟩, ?_⟩
            · rw [ht]
              exact ⟨rfl, by rw [hcur]; exact hm, by rw [hcur]; exact hm2⟩
            · have h4 : JH (Evs p [.same j.name]) p j.name i [] c s4 := by
                refine ⟨hbs.wf h3.wf, hev, ?_, ?_, ?_⟩
                · rw [he]; exact h3.hold
                · rw [he]; exact h3.data
                · rw [hbs.content_same hn.lock (by rw [he])]; exact h3.content
              exact bail_ok hn.lock f hf.path 0 _ (fun s h => ⟨fun _ => .inr h, fun e => absurd rfl e⟩) h4

end Verif.RefDb
