import Verif.Racy.Lemmas
/-! # Lemmas: what holds at every moment of a history -/
namespace Verif.Racy
open Spec

/-- the entry does not miss a change of the file: if the time and the size are those of the file, so are the contents -/
def Right (E : Env) (e : Entry) (file : Option File) : Prop :=
  ∀ f, file = some f → timeEq E e.mtime (indexTime E f.mtime) = true → e.size = f.content.length → gitId E f.content = e.id

def EmptyOk (E : Env) (e : Entry) (file : Option File) : Prop :=
  ∀ f, file = some f → f.content = [] → timeEq E e.mtime (indexTime E f.mtime) = true → e.id = gitId E []

structure EntryOk (E : Env) (file : Option File) (e : Entry) (stamp : Time) (sure : Prop) : Prop where
  plain : e.assumeUnchanged = false ∧ e.skipWorktree = false
  sure : sure → Right E e file
  ok : Right E e file ∨ newerThanIndex E e.mtime stamp = true
  empty : EmptyOk E e file

/-- a time an index file can have -/
def StampOk (s : St) (t : Time) : Prop := t.Valid ∧ t.le s.clock

structure Inv (E : Env) (s : St) : Prop where
  clock : s.clock.Valid
  small : ∀ f, s.file = some f → f.content.length < 2 ^ 32
  mem : ∀ p e, (s.mem p).entry = some e → EntryOk E s.file e (s.mem p).stamp (e.uptodate = true ∨ (s.mem p).doing = .writing)
  stamp : ∀ p, StampOk s (s.mem p).stamp ∨ ((s.mem p).stamp.sec = 0 ∧ ∀ e, (s.mem p).entry = some e → e.uptodate = true)
  disk : ∀ e t, s.disk = some (e, t) → StampOk s t ∧ ∀ e', e = some e' → e'.uptodate = false ∧ EntryOk E s.file e' t False

theorem Time.le_trans {a b c : Time} (h : a.le b) (h' : b.le c) : a.le c := by
  unfold Time.le at *
  omega

theorem Time.le_refl (a : Time) : a.le a := by
  unfold Time.le
  omega

/-- the id of a file that is read now -/
theorem create_right {E : Env} {st : Stat} {c id : Bytes} {mode : Nat} (hc : c.length < 2 ^ 32) (h : createBlob E st.size c = .ok id) : id = gitId E c := by
  unfold createBlob at h
  unfold gitId
  cases hf : E.filter with
  | none =>
    rw [hf] at h
    dsimp only at h
    by_cases hz : c.length ≠ st.size
    · rw [if_pos hz] at h; cases h
    · rw [if_neg hz] at h
      have : c.length = st.size := Classical.byContradiction hz
      cases h
      rw [this]
  | some f =>
    rw [hf] at h
    cases h
    rfl

/-- replacing what a program has -/
theorem setMem_inv {E : Env} {s : St} {p : Nat} {m : Mem} (h : Inv E s) (he : ∀ e, m.entry = some e → EntryOk E s.file e m.stamp (e.uptodate = true ∨ m.doing = .writing))
    (hst : StampOk s m.stamp ∨ (m.stamp.sec = 0 ∧ ∀ e, m.entry = some e → e.uptodate = true)) : Inv E (setMem s p m) := by
  have hm : ∀ q, (setMem s p m).mem q = if q = p then m else s.mem q := fun q => rfl
  refine ⟨h.clock, h.small, ?_, ?_, fun e t hk => h.disk e t hk⟩
  · intro q e hq
    rw [hm q] at hq ⊢
    by_cases hqp : q = p
    · rw [if_pos hqp] at hq ⊢
      exact he e hq
    · rw [if_neg hqp] at hq ⊢
      exact h.mem q e hq
  · intro q
    rw [hm q]
    by_cases hqp : q = p
    · rw [if_pos hqp]; exact hst
    · rw [if_neg hqp]; exact h.stamp q

/-- going on to do something else -/
theorem setDoing_inv {E : Env} {s : St} {p : Nat} (h : Inv E s) (d : Doing) (hd : d ≠ .writing) : Inv E (setMem s p { s.mem p with doing := d }) := by
  refine setMem_inv h ?_ (h.stamp p)
  intro e he
  have := h.mem p e he
  refine ⟨this.plain, fun hs => ?_, this.ok, this.empty⟩
  rcases hs with hs | hs
  · exact this.sure (.inl hs)
  · exact absurd hs hd

/-- an entry that is right is in order whatever the time of the index -/
theorem entryOk_right {E : Env} {file : Option File} {e : Entry} {t : Time} {P : Prop} (hp : e.assumeUnchanged = false ∧ e.skipWorktree = false) (h : Right E e file) (h0 : EmptyOk E e file) :
    EntryOk E file e t P := ⟨hp, fun _ => h, .inl h, h0⟩

/-- an id found by reading the file now -/
theorem right_of_id {E : Env} {e : Entry} {f : File} (h : e.id = gitId E f.content) : Right E e (some f) ∧ EmptyOk E e (some f) := by
  constructor
  · intro g hg _ _
    cases hg
    exact h.symm
  · intro g hg hc _
    cases hg
    rw [hc] at h
    exact h

theorem addRead_inv {E : Env} {s s' : St} {p : Nat} (h : Inv E s) (hs : step E s (.addRead p) = some s') : Inv E s' := by
  unfold step at hs
  dsimp only at hs
  cases hd : (s.mem p).doing with
  | nothing => rw [hd] at hs; cases hf : s.file <;> rw [hf] at hs <;> cases hs
  | diffing st => rw [hd] at hs; cases hf : s.file <;> rw [hf] at hs <;> cases hs
  | writing => rw [hd] at hs; cases hf : s.file <;> rw [hf] at hs <;> cases hs
  | adding st =>
    rw [hd] at hs
    cases hf : s.file with
    | none => rw [hf] at hs; cases hs; exact setDoing_inv h _ (fun x => nomatch x)
    | some f =>
      rw [hf] at hs
      dsimp only at hs
      cases ha : addEntry E (s.mem p).entry st f.content with
      | err x => rw [ha] at hs; cases hs; exact setDoing_inv h _ (fun x => nomatch x)
      | ub => rw [ha] at hs; cases hs; exact setDoing_inv h _ (fun x => nomatch x)
      | ok e =>
        rw [ha] at hs
        cases hs
        unfold addEntry at ha
        cases hc : createBlob E st.size f.content with
        | err x => rw [hc] at ha; cases ha
        | ub => rw [hc] at ha; cases ha
        | ok id =>
          rw [hc, Res.bind_ok] at ha
          cases ha
          have hid := create_right (mode := 0) (h.small f hf) hc
          refine setMem_inv h ?_ ?_
          · intro e he
            cases he
            have := right_of_id (E := E) (e := { entryFromStat E st (mergeMode E (s.mem p).entry st) id with uptodate := true }) hid
            rw [← hf] at this
            exact entryOk_right ⟨rfl, rfl⟩ this.1 this.2
          · rcases h.stamp p with hst | hst
            · exact .inl hst
            · exact .inr ⟨hst.1, by intro e he; cases he; rfl⟩

/-- an id confirmed by reading the file now, with what was known of it before -/
theorem confirmed_right {E : Env} {st : Stat} {f : File} {e : Entry} {mode : Nat} (hsm : f.content.length < 2 ^ 32) (h : hashFiltered E (st.size % 2 ^ 32) f.content = .ok e.id) :
    Right E { entryFromStat E st mode e.id with uptodate := true } (some f) ∧ EmptyOk E { entryFromStat E st mode e.id with uptodate := true } (some f) := by
  constructor
  · intro g hg _ hsz
    cases hg
    have hsz : st.size % 2 ^ 32 = f.content.length := hsz
    rw [hsz, hashFiltered_full E (by omega)] at h
    exact Res.ok.inj h
  · intro g hg hc _
    cases hg
    rw [hc] at h
    exact hashFiltered_nil (by omega) h

theorem diffRead_inv {E : Env} {s s' : St} {p : Nat} (h : Inv E s) (hs : step E s (.diffRead p) = some s') : Inv E s' := by
  unfold step at hs
  dsimp only at hs
  cases hd : (s.mem p).doing with
  | nothing => rw [hd] at hs; cases hf : s.file <;> rw [hf] at hs <;> cases hs
  | adding st => rw [hd] at hs; cases hf : s.file <;> rw [hf] at hs <;> cases hs
  | writing => rw [hd] at hs; cases hf : s.file <;> rw [hf] at hs <;> cases hs
  | diffing st =>
    rw [hd] at hs
    cases hf : s.file with
    | none => rw [hf] at hs; cases hs; exact setDoing_inv h _ (fun x => nomatch x)
    | some f =>
      rw [hf] at hs
      dsimp only at hs
      cases hs
      have hk : ∀ e', updateIndex E (s.mem p) st f.content = some e' → (s.mem p).entry = some e' ∨ (e'.uptodate = true ∧ EntryOk E s.file e' (s.mem p).stamp True) := by
        intro e' hu
        unfold updateIndex at hu
        cases he : (s.mem p).entry with
        | none => rw [he] at hu; cases hu
        | some e =>
          rw [he] at hu
          dsimp only at hu
          cases hv : maybeModified E e (s.mem p).stamp st f.content with
          | err x => rw [hv] at hu; cases hu; exact .inl rfl
          | ub => rw [hv] at hu; cases hu; exact .inl rfl
          | ok v =>
            rw [hv] at hu
            dsimp only at hu
            by_cases hc : v.confirmed = true
            · rw [if_pos hc] at hu
              cases hu
              have hp := (h.mem p e he).plain
              have hb := (maybeModified_ok hp.1 hp.2 hv).1 hc
              have hr := confirmed_right (mode := newMode E e st) (h.small f hf) hb.1
              rw [← hf] at hr
              exact .inr ⟨rfl, entryOk_right ⟨rfl, rfl⟩ hr.1 hr.2⟩
            · rw [if_neg hc] at hu
              cases hu
              exact .inl rfl
      refine setMem_inv h ?_ ?_
      · intro e' he'
        rcases hk e' he' with hk | hk
        · have := h.mem p e' hk
          refine ⟨this.plain, fun hs => ?_, this.ok, this.empty⟩
          rcases hs with hs | hs
          · exact this.sure (.inl hs)
          · cases hs
        · exact ⟨hk.2.plain, fun _ => hk.2.sure trivial, hk.2.ok, hk.2.empty⟩
      · rcases h.stamp p with hst | hst
        · exact .inl hst
        · refine .inr ⟨hst.1, fun e' he' => ?_⟩
          rcases hk e' he' with hk | hk
          · exact hst.2 e' hk
          · exact hk.1

theorem check_inv {E : Env} {s s' : St} {p : Nat} (h : Inv E s) (hs : step E s (.check p) = some s') : Inv E s' := by
  unfold step at hs
  dsimp only at hs
  cases hd : (s.mem p).doing with
  | adding st => rw [hd] at hs; cases hs
  | diffing st => rw [hd] at hs; cases hs
  | writing => rw [hd] at hs; cases hs
  | nothing =>
    rw [hd] at hs
    cases hs
    have hk : ∀ e', truncateRacilyClean E (s.mem p) s.file = some e' → EntryOk E s.file e' (s.mem p).stamp True ∧ ((∃ e, (s.mem p).entry = some e ∧ e'.uptodate = e.uptodate)) := by
      intro e' hu
      unfold truncateRacilyClean at hu
      cases he : (s.mem p).entry with
      | none => rw [he] at hu; cases hu
      | some e =>
        rw [he] at hu
        dsimp only at hu
        have hE := h.mem p e he
        by_cases hr : (!e.uptodate && newerThanIndex E e.mtime (s.mem p).stamp) = true
        · rw [if_pos hr] at hu
          simp only [Bool.and_eq_true, Bool.not_eq_true'] at hr
          have hsm : Right E { e with size := 0 } s.file := by
            intro f hf ht hz
            have h0 : f.content = [] := List.eq_nil_of_length_eq_zero hz.symm
            rw [h0]
            exact (hE.empty f hf h0 ht).symm
          have hem : EmptyOk E { e with size := 0 } s.file := fun f hf h0 ht => hE.empty f hf h0 ht
          have hsmudge : EntryOk E s.file { e with size := 0 } (s.mem p).stamp True := entryOk_right hE.plain hsm hem
          cases hf : s.file with
          | none =>
            rw [hf] at hu
            cases hu
            exact ⟨by rw [← hf]; exact hsmudge, e, rfl, rfl⟩
          | some f =>
            rw [hf] at hu
            dsimp only at hu
            have hlen := h.small f hf
            have hfull : hashFiltered E ((statOf f).size % 2 ^ 32) f.content = .ok (gitId E f.content) := by
              have : (statOf f).size % 2 ^ 32 = f.content.length := Nat.mod_eq_of_lt hlen
              rw [this]
              exact hashFiltered_full E (by omega)
            have hnf : ∀ {x}, maybeModified E e (s.mem p).stamp (statOf f) f.content = x → (∃ v, x = .ok v) := by
              intro x hx
              have hconf : ∃ v, confirm E e (statOf f) f.content = .ok v := by
                unfold confirm
                rw [hfull]
                exact ⟨_, rfl⟩
              obtain ⟨v, hv⟩ := hconf
              unfold maybeModified at hx
              dsimp only at hx
              rw [hv] at hx
              subst hx
              split
              · exact ⟨_, rfl⟩
              · split
                · exact ⟨_, rfl⟩
                · split
                  · split
                    · exact ⟨_, rfl⟩
                    · exact ⟨_, rfl⟩
                  · split
                    · exact ⟨_, rfl⟩
                    · exact ⟨_, rfl⟩
            obtain ⟨v, hv⟩ := hnf rfl
            rw [hv] at hu
            dsimp only at hu
            by_cases hm : v.modified = true
            · rw [if_pos hm] at hu
              cases hu
              exact ⟨by rw [← hf]; exact hsmudge, e, rfl, rfl⟩
            · rw [if_neg hm] at hu
              have hu := Option.some.inj hu
              subst hu
              have hm : v.modified = false := by simpa using hm
              have hc := racy_confirmed hE.plain.1 hE.plain.2 hv hr.2 hm
              have hb := ((maybeModified_ok hE.plain.1 hE.plain.2 hv).1 hc).1
              rw [hfull] at hb
              have hb : e.id = gitId E f.content := (Res.ok.inj hb).symm
              have hr := right_of_id hb
              rw [← hf] at hr
              exact ⟨by rw [← hf]; exact entryOk_right hE.plain hr.1 hr.2, e, rfl, rfl⟩
        · rw [if_neg hr] at hu
          have hu := Option.some.inj hu
          subst hu
          refine ⟨⟨hE.plain, fun _ => ?_, hE.ok, hE.empty⟩, e, rfl, rfl⟩
          cases hu : e.uptodate with
          | true => exact hE.sure (.inl hu)
          | false =>
            rcases hE.ok with h1 | h1
            · exact h1
            · rw [hu, h1] at hr
              exact absurd rfl hr
    refine setMem_inv h ?_ ?_
    · intro e' he'
      have := (hk e' he').1
      exact ⟨this.plain, fun _ => this.sure trivial, this.ok, this.empty⟩
    · rcases h.stamp p with hst | hst
      · exact .inl hst
      · refine .inr ⟨hst.1, fun e' he' => ?_⟩
        obtain ⟨_, e, he, hu⟩ := hk e' he'
        rw [hu]
        exact hst.2 e he

theorem commit_inv {E : Env} {s s' : St} {p : Nat} (h : Inv E s) (hs : step E s (.commit p) = some s') : Inv E s' := by
  unfold step at hs
  dsimp only at hs
  cases hd : (s.mem p).doing with
  | adding st => rw [hd] at hs; cases hs
  | diffing st => rw [hd] at hs; cases hs
  | nothing => rw [hd] at hs; cases hs
  | writing =>
    rw [hd] at hs
    cases hs
    have hk : ∀ e', clearUptodate (s.mem p).entry = some e' → ∀ t P, EntryOk E s.file e' t P := by
      intro e' hu t P
      unfold clearUptodate at hu
      cases he : (s.mem p).entry with
      | none => rw [he] at hu; cases hu
      | some e =>
        rw [he] at hu
        have hu : { e with uptodate := false } = e' := Option.some.inj hu
        subst hu
        have hE := h.mem p e he
        exact entryOk_right hE.plain (hE.sure (.inr hd)) hE.empty
    have hi := setMem_inv (p := p) (m := { entry := clearUptodate (s.mem p).entry, stamp := s.clock, doing := .nothing }) h (fun e he => hk e he _ _) (.inl ⟨h.clock, Time.le_refl _⟩)
    refine ⟨hi.clock, hi.small, ?_, hi.stamp, ?_⟩
    · intro q e hq
      exact hi.mem q e hq
    · intro e t he
      cases he
      refine ⟨⟨h.clock, Time.le_refl _⟩, fun e' he' => ⟨?_, hk e' he' s.clock False⟩⟩
      unfold clearUptodate at he'
      cases hx : (s.mem p).entry with
      | none => rw [hx] at he'; cases he'
      | some e => rw [hx] at he'; rw [← Option.some.inj he']

theorem read_inv {E : Env} {s s' : St} {p : Nat} (h : Inv E s) (hs : step E s (.read p) = some s') : Inv E s' := by
  unfold step at hs
  dsimp only at hs
  cases hk : s.disk with
  | none => rw [hk] at hs; cases hs
  | some x =>
    obtain ⟨e, t⟩ := x
    rw [hk] at hs
    cases hd : (s.mem p).doing with
    | adding st => rw [hd] at hs; cases hs
    | diffing st => rw [hd] at hs; cases hs
    | writing => rw [hd] at hs; cases hs
    | nothing =>
      rw [hd] at hs
      cases hs
      obtain ⟨h1, h2⟩ := h.disk e t hk
      refine setMem_inv h (fun e' he' => ?_) (.inl h1)
      obtain ⟨hu, this⟩ := h2 e' he'
      refine ⟨this.plain, fun hx => ?_, this.ok, this.empty⟩
      rcases hx with hx | hx
      · rw [hu] at hx; cases hx
      · cases hx

theorem tick_inv {E : Env} {s s' : St} {t : Time} (h : Inv E s) (hs : step E s (.tick t) = some s') : Inv E s' := by
  unfold step at hs
  dsimp only at hs
  by_cases hc : t.Valid ∧ s.clock.le t
  · rw [if_pos hc] at hs
    cases hs
    refine ⟨hc.1, h.small, h.mem, ?_, ?_⟩
    · intro p
      rcases h.stamp p with hst | hst
      · exact .inl ⟨hst.1, Time.le_trans hst.2 hc.2⟩
      · exact .inr hst
    · intro e t' hk
      obtain ⟨a, b⟩ := h.disk e t' hk
      exact ⟨⟨a.1, Time.le_trans a.2 hc.2⟩, b⟩
  · rw [if_neg hc] at hs; cases hs

theorem remove_inv {E : Env} {s s' : St} (h : Inv E s) (hs : step E s .remove = some s') : Inv E s' := by
  unfold step at hs
  dsimp only at hs
  cases hs
  have hr : ∀ e, Right E e none := fun e f hf => nomatch hf
  have h0 : ∀ e, EmptyOk E e none := fun e f hf => nomatch hf
  refine ⟨h.clock, (fun f hf => nomatch hf), ?_, h.stamp, ?_⟩
  · intro p e he
    exact entryOk_right (h.mem p e he).plain (hr e) (h0 e)
  · intro e t he
    refine ⟨(h.disk e t he).1, fun e' he' => ⟨((h.disk e t he).2 e' he').1, entryOk_right ((h.disk e t he).2 e' he').2.plain (hr e') (h0 e')⟩⟩

theorem edit_inv {E : Env} {s s' : St} {c : Bytes} {x : Bool} {o : Nat} (h : Inv E s) (hq : Quiet E s c) (hs : step E s (.edit c x o) = some s') : Inv E s' := by
  unfold step at hs
  dsimp only at hs
  cases hs
  obtain ⟨q1, q2, q3⟩ := hq
  have hnew : ∀ (e : Entry) (t : Time), StampOk s t → timeEq E e.mtime (indexTime E s.clock) = true → newerThanIndex E e.mtime t = true := by
    intro e t ht he
    rw [newer_congr he]
    exact newer_of_le E ht.1 h.clock ht.2
  have hempty : ∀ e, Exists s e → EmptyOk E e (some ⟨c, x, s.clock, s.clock, o⟩) := by
    intro e he f hf hc ht
    cases hf
    exact q3 hc e he ht
  have hright : ∀ e, timeEq E e.mtime (indexTime E s.clock) = false → Right E e (some ⟨c, x, s.clock, s.clock, o⟩) := by
    intro e he f hf ht
    cases hf
    rw [he] at ht
    cases ht
  refine ⟨h.clock, ?_, ?_, h.stamp, ?_⟩
  · intro f hf
    cases hf
    exact q1
  · intro p e he
    refine ⟨(h.mem p e he).plain, ?_, ?_, hempty e (.inl ⟨p, he⟩)⟩
    · intro hsure
      apply hright
      cases ht : timeEq E e.mtime (indexTime E s.clock) with
      | false => rfl
      | true =>
        obtain ⟨a, b⟩ := q2 p e he ht
        rcases hsure with hsure | hsure
        · rw [a] at hsure; cases hsure
        · exact absurd hsure b
    · cases ht : timeEq E e.mtime (indexTime E s.clock) with
      | false => exact .inl (hright e ht)
      | true =>
        right
        rcases h.stamp p with hst | hst
        · exact hnew e _ hst ht
        · have := (q2 p e he ht).1
          rw [hst.2 e he] at this
          cases this
  · intro e t he
    obtain ⟨a, b⟩ := h.disk e t he
    refine ⟨a, fun e' he' => ⟨(b e' he').1, (b e' he').2.plain, False.elim, ?_, hempty e' (.inr ⟨t, by rw [← he']; exact he⟩)⟩⟩
    cases ht : timeEq E e'.mtime (indexTime E s.clock) with
    | false => exact .inl (hright e' ht)
    | true => exact .inr (hnew e' _ a ht)

theorem stat_inv {E : Env} {s s' : St} {p : Nat} (h : Inv E s) (hs : step E s (.addStat p) = some s' ∨ step E s (.diffStat p) = some s') : Inv E s' := by
  unfold step at hs
  dsimp only at hs
  cases hf : s.file with
  | none => rw [hf] at hs; cases hd : (s.mem p).doing <;> rw [hd] at hs <;> rcases hs with hs | hs <;> cases hs
  | some f =>
    rw [hf] at hs
    cases hd : (s.mem p).doing with
    | adding st => rw [hd] at hs; rcases hs with hs | hs <;> cases hs
    | diffing st => rw [hd] at hs; rcases hs with hs | hs <;> cases hs
    | writing => rw [hd] at hs; rcases hs with hs | hs <;> cases hs
    | nothing =>
      rw [hd] at hs
      rcases hs with hs | hs
      · cases hs; exact setDoing_inv h _ (fun x => nomatch x)
      · cases hs; exact setDoing_inv h _ (fun x => nomatch x)

theorem step_inv {E : Env} {s s' : St} {ev : Event} (h : Inv E s) (hq : ∀ c x o, ev = .edit c x o → Quiet E s c) (hs : step E s ev = some s') : Inv E s' := by
  cases ev with
  | tick t => exact tick_inv h hs
  | edit c x o => exact edit_inv h (hq c x o rfl) hs
  | remove => exact remove_inv h hs
  | addStat p => exact stat_inv h (.inl hs)
  | addRead p => exact addRead_inv h hs
  | diffStat p => exact stat_inv h (.inr hs)
  | diffRead p => exact diffRead_inv h hs
  | check p => exact check_inv h hs
  | commit p => exact commit_inv h hs
  | read p => exact read_inv h hs

theorem run_inv {E : Env} : ∀ {es : List Event} {s s' : St}, Inv E s → Calm E es s → run E es s = some s' → Inv E s' := by
  intro es
  induction es with
  | nil => intro s s' h _ hr; cases hr; exact h
  | cons ev es ih =>
    intro s s' h hc hr
    unfold run at hr
    cases hs : step E s ev with
    | none => rw [hs] at hr; cases hr
    | some s1 =>
      rw [hs] at hr
      exact ih (step_inv h hc.1 hs) (hc.2 s1 hs) hr

theorem start_inv {E : Env} {t : Time} (ht : t.Valid) : Inv E (start t) where
  clock := ht
  small := fun f hf => nomatch hf
  mem := fun p e he => nomatch he
  stamp := fun p => .inr ⟨rfl, fun e he => nomatch he⟩
  disk := fun e t he => nomatch he

end Verif.Racy
