import Verif.Racy.Lemmas2
/-! # Lemmas: sizes in the index are those of the contents, or nothing -/
namespace Verif.Racy
open Spec

/-- the entry is of some contents, and has their size, or none -/
def Faithful (E : Env) (e : Entry) : Prop := ∃ c : Bytes, e.id = E.blobId c.length c ∧ (e.size = c.length ∨ e.size = 0)

def AllFaithful (E : Env) (s : St) : Prop := ∀ e, Exists s e → Faithful E e

theorem setMem_exists {s : St} {p : Nat} {m : Mem} {e : Entry} (h : Exists (setMem s p m) e) : Exists s e ∨ m.entry = some e := by
  rcases h with ⟨q, hq⟩ | ⟨t, ht⟩
  · have hm : (setMem s p m).mem q = if q = p then m else s.mem q := rfl
    rw [hm] at hq
    by_cases hqp : q = p
    · rw [if_pos hqp] at hq; exact .inr hq
    · rw [if_neg hqp] at hq; exact .inl (.inl ⟨q, hq⟩)
  · exact .inl (.inr ⟨t, ht⟩)

theorem setMem_faithful {E : Env} {s : St} {p : Nat} {m : Mem} (h : AllFaithful E s) (hm : ∀ e, m.entry = some e → Faithful E e) : AllFaithful E (setMem s p m) := by
  intro e he
  rcases setMem_exists he with he | he
  · exact h e he
  · exact hm e he

theorem setDoing_faithful {E : Env} {s : St} {p : Nat} (h : AllFaithful E s) (d : Doing) : AllFaithful E (setMem s p { s.mem p with doing := d }) :=
  setMem_faithful h fun e he => h e (.inl ⟨p, he⟩)

theorem addEntry_faithful {E : Env} (hf : E.filter = none) {x : Option Entry} {st : Stat} {c : Bytes} {e : Entry} (hc : c.length < 2 ^ 32) (h : addEntry E x st c = .ok e) : Faithful E e := by
  unfold addEntry createBlob at h
  rw [hf] at h
  dsimp only at h
  by_cases hz : c.length ≠ st.size
  · rw [if_pos hz] at h; cases h
  · rw [if_neg hz, Res.bind_ok] at h
    have hz : c.length = st.size := Classical.byContradiction hz
    cases h
    refine ⟨c, by rw [hz]; rfl, .inl ?_⟩
    show st.size % 2 ^ 32 = c.length
    omega

theorem updateIndex_faithful {E : Env} (hf : E.filter = none) {m : Mem} {st : Stat} {c : Bytes} {e' : Entry} (hc : c.length < 2 ^ 32)
    (hp : ∀ e, m.entry = some e → e.assumeUnchanged = false ∧ e.skipWorktree = false) (h : updateIndex E m st c = some e') : m.entry = some e' ∨ Faithful E e' := by
  unfold updateIndex at h
  cases he : m.entry with
  | none => rw [he] at h; cases h
  | some e =>
    rw [he] at h
    dsimp only at h
    cases hv : maybeModified E e m.stamp st c with
    | err x => rw [hv] at h; cases h; exact .inl rfl
    | ub => rw [hv] at h; cases h; exact .inl rfl
    | ok v =>
      rw [hv] at h
      dsimp only at h
      by_cases hcf : v.confirmed = true
      · rw [if_pos hcf] at h
        cases h
        right
        have := ((maybeModified_ok (hp e he).1 (hp e he).2 hv).1 hcf).1
        unfold hashFiltered at this
        rw [hf] at this
        obtain ⟨a, b⟩ := hashFd_ok (by omega) (by omega) this
        refine ⟨c.take (st.size % 2 ^ 32), ?_, .inl ?_⟩
        · rw [List.length_take, Nat.min_eq_left a]
          exact b
        · rw [List.length_take, Nat.min_eq_left a]
          rfl
      · rw [if_neg hcf] at h
        cases h
        exact .inl rfl

theorem truncate_faithful {E : Env} {m : Mem} {file : Option File} {e' : Entry} (hm : ∀ e, m.entry = some e → Faithful E e) (h : truncateRacilyClean E m file = some e') : Faithful E e' := by
  unfold truncateRacilyClean at h
  cases he : m.entry with
  | none => rw [he] at h; cases h
  | some e =>
    rw [he] at h
    have hE := hm e he
    have hs : Faithful E { e with size := 0 } := by
      obtain ⟨c, a, _⟩ := hE
      exact ⟨c, a, .inr rfl⟩
    dsimp only at h
    split at h
    · split at h
      · cases h; exact hs
      · split at h
        · split at h
          · cases h; exact hs
          · cases h; exact hE
        · cases h; exact hE
    · cases h; exact hE

theorem clear_faithful {E : Env} {o : Option Entry} {e' : Entry} (hm : ∀ e, o = some e → Faithful E e) (h : clearUptodate o = some e') : Faithful E e' := by
  unfold clearUptodate at h
  cases he : o with
  | none => rw [he] at h; cases h
  | some e =>
    rw [he] at h
    obtain ⟨c, a, b⟩ := hm e he
    rw [← Option.some.inj h]
    exact ⟨c, a, b⟩

theorem step_faithful {E : Env} (hf : E.filter = none) {s s' : St} {ev : Event} (hi : Inv E s) (h : AllFaithful E s) (hs : step E s ev = some s') : AllFaithful E s' := by
  unfold step at hs
  cases ev with
  | tick t =>
    dsimp only at hs
    split at hs
    · cases hs; exact h
    · cases hs
  | edit c x o => cases hs; exact h
  | remove => cases hs; exact h
  | addStat p =>
    dsimp only at hs
    split at hs
    · cases hs; exact setDoing_faithful h _
    · cases hs
  | diffStat p =>
    dsimp only at hs
    split at hs
    · cases hs; exact setDoing_faithful h _
    · cases hs
  | addRead p =>
    dsimp only at hs
    split at hs
    · rename_i f st hff hd
      split at hs
      · rename_i e he
        cases hs
        refine setMem_faithful h fun e' he' => ?_
        cases he'
        exact addEntry_faithful hf (hi.small f hff) he
      · cases hs; exact setDoing_faithful h _
    · cases hs; exact setDoing_faithful h _
    · cases hs
  | diffRead p =>
    dsimp only at hs
    split at hs
    · rename_i f st hff hd
      cases hs
      refine setMem_faithful h fun e' he' => ?_
      rcases updateIndex_faithful hf (hi.small f hff) (fun e he => (hi.mem p e he).plain) he' with hk | hk
      · exact h e' (.inl ⟨p, hk⟩)
      · exact hk
    · cases hs; exact setDoing_faithful h _
    · cases hs
  | check p =>
    dsimp only at hs
    split at hs
    · cases hs
      exact setMem_faithful h fun e' he' => truncate_faithful (fun e he => h e (.inl ⟨p, he⟩)) he'
    · cases hs
  | commit p =>
    dsimp only at hs
    split at hs
    · cases hs
      have hc : ∀ e', clearUptodate (s.mem p).entry = some e' → Faithful E e' := fun e' he' => clear_faithful (fun e he => h e (.inl ⟨p, he⟩)) he'
      intro e he
      rcases he with he | ⟨t, he⟩
      · have := setMem_faithful (p := p) (m := { entry := clearUptodate (s.mem p).entry, stamp := s.clock, doing := .nothing }) h hc
        exact this e (.inl he)
      · have he := congrArg Prod.fst (Option.some.inj he)
        exact hc e he
    · cases hs
  | read p =>
    dsimp only at hs
    split at hs
    · rename_i e t hk hd
      cases hs
      refine setMem_faithful h fun e' he' => ?_
      exact h e' (.inr ⟨t, by rw [hk]; exact congrArg (fun z => some (z, t)) he'⟩)
    · cases hs

theorem run_faithful {E : Env} (hf : E.filter = none) : ∀ {es : List Event} {s s' : St}, Inv E s → AllFaithful E s → Calm E es s → run E es s = some s' → AllFaithful E s' := by
  intro es
  induction es with
  | nil => intro s s' _ h _ hr; cases hr; exact h
  | cons ev es ih =>
    intro s s' hi h hc hr
    unfold run at hr
    cases hs : step E s ev with
    | none => rw [hs] at hr; cases hr
    | some s1 =>
      rw [hs] at hr
      exact ih (step_inv hi hc.1 hs) (step_faithful hf hi h hs) (hc.2 s1 hs) hr

/-- a file that is what the index has is not modified, unless the size in the index says so -/
theorem unmodified {E : Env} {e : Entry} {stamp : Time} {f : File} (hl : f.content.length < 2 ^ 32) (hid : gitId E f.content = e.id) (hm : e.mode = newMode E e (statOf f))
    (hz : e.size = f.content.length ∨ e.size = 0) : ∃ v, maybeModified E e stamp (statOf f) f.content = .ok v ∧ v.modified = false := by
  have hsz : (statOf f).size % 2 ^ 32 = f.content.length := Nat.mod_eq_of_lt hl
  have hconf : confirm E e (statOf f) f.content = .ok ⟨false, true⟩ := by
    unfold confirm
    rw [hsz, hashFiltered_full E (by omega), Res.bind_ok, hid, decide_eq_true hm]
    simp
  have hn : (entryFromStat E (statOf f) (newMode E e (statOf f)) []).size = f.content.length := hsz
  unfold maybeModified
  split
  · exact ⟨_, rfl, rfl⟩
  · split
    · exact ⟨_, rfl, rfl⟩
    · dsimp only
      rw [hn]
      split
      · rename_i h
        have hne : e.size ≠ f.content.length := by
          rcases h with h | h
          · exact absurd hm h
          · exact h
        rw [if_pos ⟨by rcases hz with hz | hz; exact absurd hz hne; exact hz, by omega⟩]
        exact ⟨_, hconf, rfl⟩
      · split
        · exact ⟨_, hconf, rfl⟩
        · exact ⟨_, rfl, rfl⟩

/-- what is left of a size that is too small by no multiple of the buffer is never nothing -/
theorem hashLoop_left : ∀ (fuel size : Nat) (rest acc : Bytes), size < 2 ^ 64 → rest.length < 2 ^ 62 → rest.length < fuel → size < rest.length → size % 65536 ≠ 0 →
    0 < (hashLoop fuel size rest acc).2 := by
  intro fuel
  induction fuel with
  | zero => intro size rest acc _ _ h; omega
  | succ fuel ih =>
    intro size rest acc h1 h2 h3 h4 h5
    unfold hashLoop
    rw [if_pos ⟨by omega, fun h => by rw [h] at h4; exact absurd h4 (by simp)⟩]
    have hl : (rest.take 65536).length = min 65536 rest.length := List.length_take
    have hd : (rest.drop 65536).length = rest.length - 65536 := List.length_drop
    rw [hl]
    by_cases hge : 65536 ≤ size
    · have hm : (size + 2 ^ 64 - min 65536 rest.length) % 2 ^ 64 = size - 65536 := by omega
      rw [hm]
      exact ih _ _ _ (by omega) (by omega) (by omega) (by omega) (by omega)
    · rcases Nat.eq_zero_or_pos (hashLoop fuel ((size + 2 ^ 64 - min 65536 rest.length) % 2 ^ 64) (rest.drop 65536) (acc ++ rest.take 65536)).2 with h0 | h0
      · obtain ⟨a, _⟩ := hashLoop_zero _ _ _ _ (by omega) (by omega) (by omega) h0
        omega
      · exact h0

end Verif.Racy
