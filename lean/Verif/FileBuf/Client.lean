import Verif.FileBuf.Lemmas
/-! # The client of C17 keeps its guarantee -/
namespace Verif.FileBuf
open Verif.Conc

/-- the events of one process -/
def ev (p : Pid) (s : FS) : List Event := (s.log.filter (fun x => x.1 == p)).map (·.2)

theorem ev_append (p : Pid) (s s' : FS) (es : List Event) (h : s'.log = s.log ++ es.map (fun e => (p, e))) : ev p s' = ev p s ++ es := by
  have : (es.map (fun e => (p, e))).filter (fun x => x.1 == p) = es.map (fun e => (p, e)) := by
    rw [List.filter_eq_self]; intro a ha; obtain ⟨e, _, rfl⟩ := List.mem_map.1 ha; simp
  unfold ev; rw [h, List.filter_append, this, List.map_append, List.map_map]
  congr 1
  exact List.map_id' _

theorem ev_other {p q : Pid} (hpq : p ≠ q) (s s' : FS) (hb : Base q s s') : ev p s' = ev p s := by
  obtain ⟨es, he⟩ := hb.log
  have : (es.map (fun e => (q, e))).filter (fun x => x.1 == p) = [] := by
    rw [List.filter_eq_nil_iff]; intro a ha; obtain ⟨e, _, rfl⟩ := List.mem_map.1 ha; simp [Ne.symm hpq]
  unfold ev; rw [he, List.filter_append, this, List.append_nil]

/-- the phases of a client, as the log shows them -/
def phase (t : Path) : Nat → List Event
  | 0 => []
  | 1 => [.acquired t]
  | 2 => [.acquired t, .releasing t]
  | _ => [.acquired t, .releasing t, .placed t]

/-- what a client guarantees beyond `Base` -/
structure Chg (jobs : Pid → Job) (q : Pid) (s s' : FS) : Prop where
  file : ∀ x, ¬ IsLock x → s'.dir x = s.dir x ∨ (x = (jobs q).path ∧ s'.content x = some (newContent (jobs q) (s.content x)) ∧
    ((jobs q).opts.fsync = true → ∃ i, s'.dir x = some i ∧ s'.synced i = true) ∧
    s'.log = s.log ++ [(q, .placed (jobs q).path)])
  hold : ev q s' = phase (jobs q).path 1 → ∃ i, Hold q (jobs q).path i s'
  phase : ∃ k, ev q s' = phase (jobs q).path k
  log : s'.log = s.log ∨ ∃ e, s'.log = s.log ++ [(q, e)]
  placed : s'.log = s.log ++ [(q, .placed (jobs q).path)] → s'.content (jobs q).path = some (newContent (jobs q) (s.content (jobs q).path))

/-- `p` is in phase `k` -/
def InPhase (jobs : Pid → Job) (p : Pid) (k : Nat) (s : FS) : Prop := ev p s = phase (jobs p).path k

theorem InPhase.stable (jobs : Pid → Job) (p : Pid) (k : Nat) : Stable (Chg jobs) p (InPhase jobs p k) := by
  rintro a b _ h ⟨q, hq, hb, _⟩
  unfold InPhase at *
  rw [ev_other (Ne.symm hq) a b hb]; exact h

theorem ne_append_one {α : Type} (l : List α) (a : α) : l ≠ l ++ [a] := by
  intro h; have := congrArg List.length h; simp at this

/-- outside phase 1 the lock may come and go -/
theorem InPhase.lockStep (jobs : Pid → Job) (p : Pid) (k : Nat) (hk : k ≠ 1) (t : Path) : LockStep (Chg jobs) p (InPhase jobs p k) t := by
  intro s s' hw h hb hd hl
  have he : ev p s' = ev p s := by unfold ev; rw [hl]
  unfold InPhase at *
  refine ⟨⟨fun x hx => .inl (hd x (ne_lockPath hx)), ?_, ⟨k, by rw [he]; exact h⟩, .inl hl, ?_⟩, by rw [he]; exact h⟩
  · intro h1
    rw [he, h] at h1
    match k, hk with
    | 0, _ => cases h1
    | 2, _ => cases h1
    | k + 3, _ => cases h1
  · intro h1; rw [hl] at h1; exact absurd h1 (ne_append_one _ _)

/-- phase 1: writing while holding the lock -/
theorem InPhase.quiet (jobs : Pid → Job) (p : Pid) (i : Ino) :
    Quiet (Chg jobs) p (fun s => InPhase jobs p 1 s ∧ Hold p (jobs p).path i s) := by
  rintro s s' hw ⟨h, hh⟩ hb hd hl
  have he : ev p s' = ev p s := by unfold ev; rw [hl]
  have hh' : Hold p (jobs p).path i s' := ⟨by rw [hd]; exact hh.1, by rw [hb.owner_old i (hw.bound _ _ hh.1)]; exact hh.2⟩
  unfold InPhase at *
  refine ⟨⟨fun x hx => .inl (by rw [hd]), fun _ => ⟨i, hh'⟩, ⟨1, by rw [he]; exact h⟩, .inl hl, ?_⟩, by rw [he]; exact h, hh'⟩
  intro h1; rw [hl] at h1; exact absurd h1 (ne_append_one _ _)

theorem phase1_stable (jobs : Pid → Job) (p : Pid) (i : Ino) :
    Stable (Chg jobs) p (fun s => InPhase jobs p 1 s ∧ Hold p (jobs p).path i s) := by
  rintro a b hw ⟨h, hh⟩ hr
  have hr' := hr
  obtain ⟨q, hq, hb, _⟩ := hr'
  exact ⟨InPhase.stable jobs p 1 a b hw h hr, hb.hold (Ne.symm hq) hw hh⟩

theorem writeAll_ok (jobs : Pid → Job) (rd : Bool) (p : Pid) (ht : ¬ IsLock (jobs p).path) {o : Opts} {i : Ino} {c : Option Bytes} (checks : Bool) :
    ∀ (ds : List Bytes) (f : FB) (_ : Owns f (jobs p).path o i) (sent : Bytes) (_ : o.noBuffer = true → f.buf = [])
    (post : Bool × FB → FS → Prop)
    (_ : ∀ ok f' s, Owns f' (jobs p).path o i → (∃ m, JW (fun s => InPhase jobs p 1 s ∧ Hold p (jobs p).path i s) p (jobs p).path i c f' m s ∧
      (ok = true → m = sent ++ ds.flatten)) → post (ok, f') s)
    {s : FS} (_ : JW (fun s => InPhase jobs p 1 s ∧ Hold p (jobs p).path i s) p (jobs p).path i c f sent s),
    OkP (Chg jobs) rd p post (writeAll checks ds f) s := by
  intro ds
  induction ds with
  | nil =>
    intro f hf sent hb post hpost s h
    unfold writeAll
    exact Ok.retI _ h (JW.stable ht (phase1_stable jobs p i)) (fun s h => hpost true f s hf ⟨sent, h, fun _ => by simp⟩)
  | cons d ds ih =>
    intro f hf sent hb post hpost s h
    unfold writeAll
    refine Ok.bind (fbWrite_ok (phase1_stable jobs p i) (InPhase.quiet jobs p i) ht f hf d sent hb _ ?_ h)
    intro r f' s' hf' _ hr _ hb' hw
    simp only
    split
    · exact Ok.retI _ hw (JW.stable ht (phase1_stable jobs p i)) (fun s h => hpost false f' s hf' ⟨_, h, fun e => by cases e⟩)
    · refine ih f' hf' (sent ++ d) hb' post ?_ hw
      rintro ok f2 s2 h1 ⟨m, h2, h3⟩
      exact hpost ok f2 s2 h1 ⟨m, h2, fun e => by rw [h3 e]; simp⟩

/-- what the client has done when it returns -/
def Post (jobs : Pid → Job) (p : Pid) (r : Int) (s : FS) : Prop :=
  (r = 0 → InPhase jobs p 3 s) ∧ (r ≠ 0 → ∃ k, k ≠ 3 ∧ k < 3 ∧ InPhase jobs p k s)

theorem ev_event (p : Pid) (e : Event) (s : FS) : ev p { s with log := s.log ++ [(p, e)] } = ev p s ++ [e] :=
  ev_append p s _ [e] rfl

theorem job_ok (jobs : Pid → Job) (rd : Bool) (p : Pid) (ht : ¬ IsLock (jobs p).path) {s : FS} (h : WF s ∧ InPhase jobs p 0 s) :
    OkP (Chg jobs) rd p (Post jobs p) (jobs p).run s := by
  unfold Job.run
  refine Ok.bind (fbOpen_ok (InPhase.stable jobs p 0) ht (InPhase.lockStep jobs p 0 (by decide) _) (jobs p).opts _ ?_ ?_ h)
  · intro r f s hr h
    simp only
    rw [if_pos hr]
    exact Ok.retI _ h (J0.stable (InPhase.stable jobs p 0)) (fun s h => ⟨fun e => by omega, fun _ => ⟨0, by decide, by decide, h.2⟩⟩)
  · intro f i c s hf hbuf hle hopen h
    simp only
    rw [if_neg (by decide)]
    -- acquired
    refine Ok.cmd _ h (JH.stable ht (InPhase.stable jobs p 0)) ?_
    intro s1 h1 r1 s2 he
    have he : s2 = { s1 with log := s1.log ++ [(p, .acquired (jobs p).path)] } := he
    have hb := Base.event p (.acquired (jobs p).path) s1
    rw [← he] at hb
    have hev : InPhase jobs p 1 s2 := by
      unfold InPhase
      rw [he, ev_event, h1.j]; rfl
    have hh : Hold p (jobs p).path i s2 := by rw [he]; exact h1.hold
    have hne : Event.acquired (jobs p).path ≠ Event.placed (jobs p).path := by intro e; cases e
    refine ⟨⟨hb, ⟨fun x _ => .inl (by rw [he]), fun _ => ⟨i, hh⟩, ⟨1, hev⟩, .inr ⟨_, by rw [he]⟩, ?_⟩⟩, ?_⟩
    · intro e; rw [he] at e
      have e := List.append_cancel_left e
      cases e
    have hjw : JW (fun s => InPhase jobs p 1 s ∧ Hold p (jobs p).path i s) p (jobs p).path i c f (initial (jobs p).opts c) s2 := by
      refine ⟨_, ⟨hb.wf h1.wf, ⟨hev, hh⟩, hh, ?_, ?_⟩, fun _ => by rw [hbuf, List.append_nil]⟩
      · rw [he]; exact h1.data
      · rw [hb.content_same ht (by rw [he])]; exact h1.content
    refine Ok.bind (writeAll_ok jobs rd p ht (jobs p).checks (jobs p).pieces f hf _ (fun _ => hbuf) _ ?_ hjw)
    rintro ok f' s3 hf' ⟨m, h3, hm⟩
    simp only
    -- releasing
    refine Ok.cmd _ h3 (JW.stable ht (phase1_stable jobs p i)) ?_
    rintro s4 ⟨d, h4, hd⟩ r2 s5 he
    have he : s5 = { s4 with log := s4.log ++ [(p, .releasing (jobs p).path)] } := he
    have hb := Base.event p (.releasing (jobs p).path) s4
    rw [← he] at hb
    have hev : InPhase jobs p 2 s5 := by
      have := h4.j.1
      unfold InPhase at *
      rw [he, ev_event, this]; rfl
    have hh : Hold p (jobs p).path i s5 := by rw [he]; exact h4.hold
    refine ⟨⟨hb, ⟨fun x _ => .inl (by rw [he]), fun _ => ⟨i, hh⟩, ⟨2, hev⟩, .inr ⟨_, by rw [he]⟩, ?_⟩⟩, ?_⟩
    · intro e; rw [he] at e
      have e := List.append_cancel_left e
      cases e
    have hjh : JH (InPhase jobs p 2) p (jobs p).path i d c s5 := by
      refine ⟨hb.wf h4.wf, hev, hh, ?_, ?_⟩
      · rw [he]; exact h4.data
      · rw [hb.content_same ht (by rw [he])]; exact h4.content
    split
    · refine Ok.bind (cleanup_lock (InPhase.stable jobs p 2) ht (InPhase.lockStep jobs p 2 (by decide) _) f' hf'.path _ ?_ ⟨d, hjh⟩)
      intro s h
      exact Ok.retI _ h (J0.stable (InPhase.stable jobs p 2)) (fun s h => ⟨fun e => (by cases e), fun _ => ⟨2, by decide, by decide, h.2⟩⟩)
    · rename_i hab
      have hok : ok = true := by
        cases ok with
        | true => rfl
        | false => exact absurd (Or.inr rfl) hab
      have hm := hm hok
      refine fbCommit_ok (J' := InPhase jobs p 3) (InPhase.stable jobs p 2) (InPhase.stable jobs p 3) ht
        (InPhase.lockStep jobs p 2 (by decide) _) (InPhase.lockStep jobs p 3 (by decide) (jobs p).path).quiet (sent := m) f' hf' ?_ _ ?_ ?_ ⟨d, hjh, hd⟩
      · intro s hj hsync hb
        have hev3 : InPhase jobs p 3 (moved p (jobs p).path i s) := by
          have h := hj.j
          unfold InPhase at *
          have : ev p (moved p (jobs p).path i s) = ev p s ++ [.placed (jobs p).path] := ev_append p s _ [_] rfl
          rw [this, h]; rfl
        have hc : (moved p (jobs p).path i s).content (jobs p).path = some (newContent (jobs p) (s.content (jobs p).path)) := by
          unfold FS.content moved newContent
          simp only [upd_same, Option.map_some]
          rw [hj.data, hm]
          have := hj.content
          unfold FS.content at this
          rw [this]; rfl
        refine ⟨⟨?_, ?_, ⟨3, hev3⟩, .inr ⟨_, rfl⟩, fun _ => hc⟩, hev3⟩
        · intro x hx
          by_cases hxt : x = (jobs p).path
          · subst hxt
            right
            refine ⟨rfl, hc, fun hs => ⟨i, upd_same _ _ _, hsync hs⟩, rfl⟩
          · left
            show upd (upd s.dir _ none) _ _ x = _
            rw [upd_ne _ _ hxt, upd_ne _ _ (ne_lockPath hx)]
        · intro h1
          unfold InPhase at hev3
          rw [hev3] at h1
          cases h1
      · intro s h
        exact ⟨fun e => (by cases e), fun _ => ⟨2, by decide, by decide, h.2⟩⟩
      · intro s h
        exact ⟨fun _ => h.2, fun e => absurd rfl e⟩

end Verif.FileBuf
