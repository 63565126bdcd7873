import Verif.RefDb.LemmasRead
import Verif.FileBuf.Props
/-! # C18: updating a reference is a compare-and-swap; C19: packing references changes no value -/
namespace Verif.RefDb
open Verif.Conc Verif.FileBuf Verif.RefPacked

section
variable {size : Nat} {f : Faults} {tasks : Pid → Task} {fs : FS} {c : Config Cmd R FS Outcome}

/-- what holds when a process has returned -/
def Post (size : Nat) (tasks : Pid → Task) (fs : FS) (p : Pid) (o : Outcome) (s : FS) : Prop :=
  match tasks p, o with
  | .write j, .code r => PostW p j.name r s
  | .delete j, .code r => PostD p j.name r s
  | .read n, .found r => ReadOnly tasks → (∃ q j, tasks q = .pack j) → r = val size fs n
  | .pack _, .code _ => True
  | _, _ => False

theorem start_ok (h : Setup size f tasks fs) (p : Pid) :
    Ok (exec f) p (fun a b => ∃ q, q ≠ p ∧ G (Chg size tasks) q a b) (G (Chg size tasks) p) (Post size tasks fs p) ((start size tasks fs).procs p)
      (start size tasks fs).st := by
  have hf : f = ⟨false, f.read⟩ := by rw [← h.sync]
  rw [hf]
  have halone : (tasks p).rewrites → Alone tasks p := fun hp q hq hr => hq (h.one q p hr hp)
  have hev : ev p fs = [] := by unfold ev; rw [h.fresh.log]; rfl
  show OkP (Chg size tasks) f.read p (Post size tasks fs p) ((tasks p).run size) fs
  cases ht : tasks p with
  | write j =>
    refine Ok.bind ((writer_ok h.size_pos ht (h.valid p) ⟨h.fresh.wf, hev⟩).mono ?_)
    intro r s hp
    have : ∀ a b, PostW p j.name r a → rely (Chg size tasks) p a b → PostW p j.name r b := by
      rintro a b hp ⟨q, hq, hb, _⟩
      unfold PostW; rw [ev_other (Ne.symm hq) a b hb]; exact hp
    exact Ok.retI _ hp this (fun s hp => by unfold Post; rw [ht]; exact hp)
  | delete j =>
    have hrw : (tasks p).rewrites := by rw [ht]; trivial
    refine Ok.bind ((deleter_ok h.size_pos (halone hrw) ht (h.valid p) (h.packed p hrw) h.fresh.wf rfl).mono ?_)
    intro r s hp
    have : ∀ a b, PostD p j.name r a → rely (Chg size tasks) p a b → PostD p j.name r b := by
      rintro a b hp ⟨q, hq, hb, _⟩
      unfold PostD; rw [ev_other (Ne.symm hq) a b hb]; exact hp
    exact Ok.retI _ hp this (fun s hp => by unfold Post; rw [ht]; exact hp)
  | pack j =>
    have hrw : (tasks p).rewrites := by rw [ht]; trivial
    refine Ok.bind ((packer_ok h.size_pos (h.read p hrw) (halone hrw) ht (h.valid p) (h.packed p hrw) h.fresh.wf rfl).mono ?_)
    intro r s _
    exact Ok.retI (fun _ => True) trivial (fun _ _ _ _ => trivial) (fun s _ => by unfold Post; rw [ht]; trivial)
  | read n =>
    have hv := h.valid p
    rw [ht] at hv
    by_cases hro : ReadOnly tasks ∧ ∃ q j, tasks q = .pack j
    · have hrd : f.read = false := by
        obtain ⟨_, q, j, hq⟩ := hro
        exact h.read q (by rw [hq]; trivial)
      refine Ok.bind ((reader_ok hro.1 hv hrd h.fresh.wf rfl).mono ?_)
      intro r s hr
      exact Ok.retI (fun _ => True) trivial (fun _ _ _ _ => trivial) (fun s _ => by unfold Post; rw [ht]; exact fun _ _ => hr)
    · refine Ok.bind ((reader_any n h.fresh.wf).mono ?_)
      intro r s hr
      exact Ok.retI (fun _ => True) trivial (fun _ _ _ _ => trivial)
        (fun s _ => by unfold Post; rw [ht]; exact fun h1 h2 => absurd ⟨h1, h2⟩ hro)

theorem run_step (h : Setup size f tasks fs) (hr : Run (exec f) (start size tasks fs) c) {p : Pid} {c' : Config Cmd R FS Outcome}
    (hs : Step (exec f) p c c') : G (Chg size tasks) p c.st c'.st :=
  (rg_sound (exec f) (G (Chg size tasks)) (Post size tasks fs) _ (start_ok h) hr).2 p c' hs

theorem Run.trans {c₀ c₁ c₂ : Config Cmd R FS Outcome} (h1 : Run (exec f) c₀ c₁) (h2 : Run (exec f) c₁ c₂) : Run (exec f) c₀ c₂ := by
  induction h2 with
  | start => exact h1
  | next p _ hs ih => exact .next p ih hs

/-- every event was recorded by one step of its process -/
theorem event_step (h : Setup size f tasks fs) (hr : Run (exec f) (start size tasks fs) c) {p : Pid} {e : Event} (he : e ∈ ev p c.st) :
    ∃ c₁ c₂, Run (exec f) (start size tasks fs) c₁ ∧ Step (exec f) p c₁ c₂ ∧ Run (exec f) c₂ c ∧ c₂.st.log = c₁.st.log ++ [(p, e)] := by
  induction hr with
  | start =>
    exfalso
    have : ev p (start size tasks fs).st = [] := by show ev p fs = []; unfold ev; rw [h.fresh.log]; rfl
    rw [this] at he; cases he
  | @next c c' q hr hs ih =>
    obtain ⟨hb, hc⟩ := run_step h hr hs
    have old : e ∈ ev p c.st → ∃ c₁ c₂, Run (exec f) (start size tasks fs) c₁ ∧ Step (exec f) p c₁ c₂ ∧ Run (exec f) c₂ c' ∧
        c₂.st.log = c₁.st.log ++ [(p, e)] := by
      intro he
      obtain ⟨c₁, c₂, h1, h2, h3, h4⟩ := ih he
      exact ⟨c₁, c₂, h1, h2, .next q h3 hs, h4⟩
    rcases hc.log with hl | ⟨e', hl, _⟩
    · exact old (by rw [← ev_log hl]; exact he)
    · by_cases hpq : p = q
      · subst hpq
        rw [ev_append p c.st c'.st [e'] hl] at he
        rcases List.mem_append.mp he with he | he
        · exact old he
        · rw [List.mem_singleton] at he
          subst he
          exact ⟨c, c', hr, hs, .start, hl⟩
      · exact old (by rw [← ev_other hpq c.st c'.st hb]; exact he)

/-- what `p` has recorded stays recorded -/
theorem ev_mono (h : Setup size f tasks fs) {c₁ : Config Cmd R FS Outcome} (h1 : Run (exec f) (start size tasks fs) c₁) (hr : Run (exec f) c₁ c)
    {p : Pid} {e : Event} (he : e ∈ ev p c₁.st) : e ∈ ev p c.st := by
  induction hr with
  | start => exact he
  | @next c c' q hr hs ih =>
    obtain ⟨hb, _⟩ := run_step h (Run.trans h1 hr) hs
    by_cases hpq : p = q
    · subst hpq
      obtain ⟨es, hes⟩ := hb.log
      rw [ev_append p _ _ es hes]; simp [ih]
    · rw [ev_other hpq _ _ hb]; exact ih

/-- **C18 (compare and swap).** Writers, deleters, a packer and readers run at once on any references, interleaved in any way, failing and
stopping anywhere.  A step of a process changes the value of no reference, except that a writer changes its own reference, in one step, from a
value that matches what it expected to exactly the new value, and a deleter changes its own from a value that matches to "not found". -/
theorem C18_cas (h : Setup size f tasks fs) (hr : Run (exec f) (start size tasks fs) c) {p : Pid} {c' : Config Cmd R FS Outcome}
    (hs : Step (exec f) p c c') (n : Path) (hn : RefName n) :
    val size c'.st n = val size c.st n ∨ (tasks p).Trans size n (val size c.st n) (val size c'.st n) := by
  obtain ⟨_, hc⟩ := run_step h hr hs
  rcases hc.value n hn with e | ⟨_, e⟩
  · exact .inl e
  · exact .inr e

/-- **C18 (success).** A writer that returns 0 has, at one step of its own, found the expected value, and right after that step the reference
had the new value.  (Writing the zero id to a reference that does not exist does nothing and succeeds.) -/
theorem C18_success (h : Setup size f tasks fs) (hr : Run (exec f) (start size tasks fs) c) {p : Pid} {j : WriteJob} (ht : tasks p = .write j)
    (hret : c.procs p = .ret (.code 0)) :
    ∃ c₁ c₂, Run (exec f) (start size tasks fs) c₁ ∧ Step (exec f) p c₁ c₂ ∧ Run (exec f) c₂ c ∧
      Matches size j.oldId j.oldTarget (val size c₁.st j.name) ∧
      (val size c₂.st j.name = .ok j.value ∨
        (j.value = .oid (List.replicate size 0) ∧ val size c₁.st j.name = .err ENOTFOUND ∧ val size c₂.st j.name = .err ENOTFOUND)) := by
  have hp := rg_post (exec f) (G (Chg size tasks)) (Post size tasks fs) _ (start_ok h) hr p _ hret
  unfold Post at hp
  rw [ht] at hp
  have hv := h.valid p
  rw [ht] at hv
  rcases hp.1 rfl with hev | hev
  · obtain ⟨c₁, c₂, h1, h2, h3, h4⟩ := event_step h hr (p := p) (e := .placed j.name) (by rw [hev]; simp)
    obtain ⟨_, hc⟩ := run_step h h1 h2
    rcases hc.log with hl | ⟨e, hl, hok⟩
    · rw [h4] at hl; exact absurd hl.symm (ne_append_one _ _)
    · rw [h4] at hl
      have := List.append_cancel_left hl
      simp only [List.cons.injEq, Prod.mk.injEq, true_and, and_true] at this
      subst this
      rw [ht] at hok
      exact ⟨c₁, c₂, h1, h2, h3, hok.2.1, .inl hok.2.2⟩
  · obtain ⟨c₁, c₂, h1, h2, h3, h4⟩ := event_step h hr (p := p) (e := .same j.name) (by rw [hev]; simp)
    obtain ⟨_, hc⟩ := run_step h h1 h2
    rcases hc.log with hl | ⟨e, hl, hok⟩
    · rw [h4] at hl; exact absurd hl.symm (ne_append_one _ _)
    · rw [h4] at hl
      have := List.append_cancel_left hl
      simp only [List.cons.injEq, Prod.mk.injEq, true_and, and_true] at this
      subst this
      rw [ht] at hok
      have hsame : val size c₂.st j.name = val size c₁.st j.name := by
        refine hc.quiet j ht ?_ j.name hv.1
        rw [h4]
        intro e
        have := List.append_cancel_left e
        simp at this
      refine ⟨c₁, c₂, h1, h2, h3, hok.2.1, ?_⟩
      rw [hsame]
      rcases hok.2.2 with ⟨h5, h6⟩ | ⟨h5, h6⟩ | ⟨x, h5, h6, h7⟩ | ⟨t, h5, h6, h7⟩
      · cases hj : j.value <;> rw [hj] at h5 h6 <;> simp [RefVal.id?, RefVal.target?] at h5 h6
      · right
        refine ⟨?_, h5, h5⟩
        cases hj : j.value <;> rw [hj] at h6 <;> simp [RefVal.id?] at h6
        rw [h6]
      · left
        rw [h5]
        cases hj : j.value <;> rw [hj] at h6 <;> simp [RefVal.id?] at h6
        rw [h6]
      · left
        rw [h5]
        cases hj : j.value <;> rw [hj] at h6 <;> simp [RefVal.target?] at h6
        rw [h6]

/-- **C18 (failure).** A writer that returns an error has not changed the value of any reference at any of its steps. -/
theorem C18_failure (h : Setup size f tasks fs) (hr : Run (exec f) (start size tasks fs) c) {p : Pid} {j : WriteJob} (ht : tasks p = .write j)
    {e : Int} (he : e ≠ 0) (hret : c.procs p = .ret (.code e)) {c₁ c₂ : Config Cmd R FS Outcome} (h1 : Run (exec f) (start size tasks fs) c₁)
    (h2 : Step (exec f) p c₁ c₂) (h3 : Run (exec f) c₂ c) (n : Path) (hn : RefName n) : val size c₂.st n = val size c₁.st n := by
  have hp := rg_post (exec f) (G (Chg size tasks)) (Post size tasks fs) _ (start_ok h) hr p _ hret
  unfold Post at hp
  rw [ht] at hp
  have hev := hp.2 he
  obtain ⟨_, hc⟩ := run_step h h1 h2
  refine hc.quiet j ht ?_ n hn
  intro hl
  have : Event.placed j.name ∈ ev p c₂.st := by rw [ev_append p c₁.st c₂.st [.placed j.name] hl]; simp
  have := ev_mono h (.next p h1 h2) h3 this
  rw [hev] at this; cases this

/-- **C18 (no lost update).** If all the writers of a reference expect the same old id and write another one, and nobody deletes it, then at
most one of them succeeds. -/
theorem C18_one_winner (h : Setup size f tasks fs) (hr : Run (exec f) (start size tasks fs) c) (n : Path) (x : Bytes)
    (hw : ∀ q j, tasks q = .write j → j.name = n → j.oldId = some x ∧ ∃ y, j.value = .oid y ∧ y ≠ x)
    (hd : ∀ q j, tasks q = .delete j → j.name ≠ n)
    {p q : Pid} {i j : WriteJob} (hp : tasks p = .write i) (hq : tasks q = .write j) (hpn : i.name = n) (hqn : j.name = n)
    (hp0 : c.procs p = .ret (.code 0)) (hq0 : c.procs q = .ret (.code 0)) : p = q := by
  have hnm : RefName n := by have := h.valid p; rw [hp] at this; rw [← hpn]; exact this.1
  -- after somebody has placed the reference, its value is not the expected one, and nobody else places it
  let I : FS → Prop := fun s => ∀ a, Event.placed n ∈ ev a s → (∃ y, val size s n = .ok (.oid y) ∧ y ≠ x) ∧ ∀ b, Event.placed n ∈ ev b s → b = a
  have hI : I c.st := by
    refine rg_inv (exec f) (G (Chg size tasks)) (Post size tasks fs) _ (start_ok h) I ?_ ?_ hr
    · intro a ha
      have : ev a (start size tasks fs).st = [] := by show ev a fs = []; unfold ev; rw [h.fresh.log]; rfl
      rw [this] at ha; cases ha
    · intro r s s' hI ⟨hb, hc⟩
      by_cases hl : s'.log = s.log ++ [(r, .placed n)]
      · rcases hc.log with hl' | ⟨e, hl', hok⟩
        · rw [hl] at hl'; exact absurd hl'.symm (ne_append_one _ _)
        · rw [hl] at hl'
          have := List.append_cancel_left hl'
          simp only [List.cons.injEq, Prod.mk.injEq, true_and, and_true] at this
          subst this
          cases ht : tasks r with
          | read m => rw [ht] at hok; exact absurd hok (by simp [EvOk])
          | pack m => rw [ht] at hok; exact absurd hok hnm.packed
          | delete m => rw [ht] at hok; exact absurd hok hnm.packed
          | write w =>
            rw [ht] at hok
            obtain ⟨h1, h2, h3⟩ := hok
            obtain ⟨h4, y, h5, h6⟩ := hw r w ht h1.symm
            have hnone : ∀ a, Event.placed n ∉ ev a s := by
              intro a ha
              obtain ⟨⟨z, hz, hzx⟩, _⟩ := hI a ha
              rw [hz, h4] at h2
              rcases h2 with ⟨h, _⟩ | ⟨h, _⟩ | ⟨u, h, h', _⟩ | ⟨u, _, _, h⟩
              · cases h
              · cases h
              · cases h; cases h'; exact hzx rfl
              · cases h
            have honly : ∀ a, Event.placed n ∈ ev a s' → a = r := by
              intro a ha
              by_cases har : a = r
              · exact har
              · rw [ev_other har s s' hb] at ha; exact absurd ha (hnone a)
            intro a ha
            refine ⟨⟨y, by rw [h3, h5], h6⟩, fun b hb' => ?_⟩
            rw [honly a ha, honly b hb']
      · -- nothing placed: the events of interest and the value are the same
        have hev : ∀ a, Event.placed n ∈ ev a s' → Event.placed n ∈ ev a s := by
          intro a ha
          by_cases har : a = r
          · subst har
            rcases hc.log with hl' | ⟨e, hl', _⟩
            · rw [ev_log hl'] at ha; exact ha
            · rw [ev_append a s s' [e] hl'] at ha
              rcases List.mem_append.mp ha with ha | ha
              · exact ha
              · rw [List.mem_singleton] at ha
                subst ha
                exact absurd hl' hl
          · rw [ev_other har s s' hb] at ha; exact ha
        have hval : val size s' n = val size s n := by
          cases ht : tasks r with
          | write w =>
            by_cases hwn : w.name = n
            · exact hc.quiet w ht (by rw [hwn]; exact hl) n hnm
            · rcases hc.value n hnm with e | ⟨_, e⟩
              · exact e
              · rw [ht] at e; exact absurd e.1.symm hwn
          | delete w =>
            rcases hc.value n hnm with e | ⟨_, e⟩
            · exact e
            · rw [ht] at e; exact absurd e.1.symm (hd r w ht)
          | pack w =>
            rcases hc.value n hnm with e | ⟨_, e⟩
            · exact e
            · rw [ht] at e; exact e.elim
          | read w =>
            rcases hc.value n hnm with e | ⟨_, e⟩
            · exact e
            · rw [ht] at e; exact e.elim
        intro a ha
        obtain ⟨⟨y, h1, h2⟩, h3⟩ := hI a (hev a ha)
        exact ⟨⟨y, by rw [hval]; exact h1, h2⟩, fun b hb' => h3 b (hev b hb')⟩
  -- success means placed
  have hplaced : ∀ a (w : WriteJob), tasks a = .write w → w.name = n → c.procs a = .ret (.code 0) → Event.placed n ∈ ev a c.st := by
    intro a w ht hwn ha
    have hpost := rg_post (exec f) (G (Chg size tasks)) (Post size tasks fs) _ (start_ok h) hr a _ ha
    unfold Post at hpost
    rw [ht] at hpost
    rcases hpost.1 rfl with hev | hev
    · rw [hev, hwn]; simp
    · exfalso
      obtain ⟨c₁, c₂, h1, h2, h3, h4⟩ := event_step h hr (p := a) (e := .same w.name) (by rw [hev]; simp)
      obtain ⟨_, hc⟩ := run_step h h1 h2
      rcases hc.log with hl | ⟨e, hl, hok⟩
      · rw [h4] at hl; exact absurd hl.symm (ne_append_one _ _)
      · rw [h4] at hl
        have := List.append_cancel_left hl
        simp only [List.cons.injEq, Prod.mk.injEq, true_and, and_true] at this
        subst this
        rw [ht] at hok
        obtain ⟨_, h5, h6⟩ := hok
        obtain ⟨h7, y, h8, h9⟩ := hw a w ht hwn
        rw [h7] at h5
        rw [h8] at h6
        rcases h5 with ⟨g, _⟩ | ⟨g1, g2⟩ | ⟨u, g1, g2, _⟩ | ⟨u, _, _, g⟩
        · cases g
        · rw [g1] at h6
          rcases h6 with ⟨g, _⟩ | ⟨_, g3⟩ | ⟨u, g, _⟩ | ⟨u, g, _⟩
          · cases g
          · simp [RefVal.id?] at g2 g3; exact h9 (by rw [g2, g3])
          · cases g
          · cases g
        · rw [g1] at h6
          rcases h6 with ⟨g, _⟩ | ⟨g, _⟩ | ⟨v, g3, g4, _⟩ | ⟨v, g, _⟩
          · cases g
          · cases g
          · simp [RefVal.id?] at g2 g3 g4; exact h9 (by rw [g2, g4, g3])
          · cases g
        · cases g
  exact (hI q (hplaced q j hq hqn hq0)).2 p (hplaced p i hp hpn hp0)

/-- **C18 (deleting).** When a deletion has returned 0, there was a moment, while it ran, at which the reference did not exist. -/
theorem C18_delete (h : Setup size f tasks fs) (hr : Run (exec f) (start size tasks fs) c) {p : Pid} {j : DeleteJob} (ht : tasks p = .delete j)
    (hret : c.procs p = .ret (.code 0)) :
    ∃ c₁ c₂, Run (exec f) (start size tasks fs) c₁ ∧ Step (exec f) p c₁ c₂ ∧ Run (exec f) c₂ c ∧ val size c₁.st j.name = .err ENOTFOUND := by
  have hp := rg_post (exec f) (G (Chg size tasks)) (Post size tasks fs) _ (start_ok h) hr p _ hret
  unfold Post at hp
  rw [ht] at hp
  obtain ⟨c₁, c₂, h1, h2, h3, h4⟩ := event_step h hr (hp rfl)
  obtain ⟨_, hc⟩ := run_step h h1 h2
  rcases hc.log with hl | ⟨e, hl, hok⟩
  · rw [h4] at hl; exact absurd hl.symm (ne_append_one _ _)
  · rw [h4] at hl
    have := List.append_cancel_left hl
    simp only [List.cons.injEq, Prod.mk.injEq, true_and, and_true] at this
    subst this
    rw [ht] at hok
    exact ⟨c₁, c₂, h1, h2, h3, hok.2⟩

/-- **C19 (packing changes nothing).** Whatever else runs (one packer or deleter, any number of writers and readers), however the calls of the
packer fail and wherever it stops: no step of a packer changes the value of any reference. -/
theorem C19_pack (h : Setup size f tasks fs) (hr : Run (exec f) (start size tasks fs) c) {p : Pid} {j : PackJob} (ht : tasks p = .pack j)
    {c' : Config Cmd R FS Outcome} (hs : Step (exec f) p c c') (n : Path) (hn : RefName n) : val size c'.st n = val size c.st n := by
  rcases C18_cas h hr hs n hn with e | e
  · exact e
  · rw [ht] at e; exact e.elim

/-- **C19 (every reference, every moment).** A packer among readers: at every moment every reference has the value it started with. -/
theorem C19_values (h : Setup size f tasks fs) (hro : ∀ q, (∃ j, tasks q = .pack j) ∨ ∃ m, tasks q = .read m)
    (hr : Run (exec f) (start size tasks fs) c) (n : Path) (hn : RefName n) : val size c.st n = val size fs n := by
  induction hr with
  | start => rfl
  | @next c c' p hr hs ih =>
    rcases C18_cas h hr hs n hn with e | e
    · rw [e]; exact ih
    · rcases hro p with ⟨j, hj⟩ | ⟨m, hj⟩ <;> rw [hj] at e <;> exact e.elim

/-- **C19 (readers).** A lookup that runs at the same time as a packer, taking no lock and reading the loose file and the packed file at
different moments, returns the value the reference has: it is never "not found" in between. -/
theorem C19_reader (h : Setup size f tasks fs) (hro : ∀ q, (∃ j, tasks q = .pack j) ∨ ∃ m, tasks q = .read m) {q : Pid} {j : PackJob}
    (hq : tasks q = .pack j) (hr : Run (exec f) (start size tasks fs) c) {p : Pid} {n : Path} (ht : tasks p = .read n) {r : Res RefVal}
    (hret : c.procs p = .ret (.found r)) : r = val size fs n := by
  have hp := rg_post (exec f) (G (Chg size tasks)) (Post size tasks fs) _ (start_ok h) hr p _ hret
  unfold Post at hp
  rw [ht] at hp
  exact hp hro ⟨q, j, hq⟩

end
end Verif.RefDb
