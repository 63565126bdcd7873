import Verif.Racy.Lemmas3
/-! # C77: a change of a file is noticed whenever it was made -/
namespace Verif.Racy
open Spec

/-- **C77 (noticed).** At every moment of every calm history of one file and any number of programs that add it, compare it, write and read the index: when the comparison of the index
with the working directory says that the file is not modified, the file is there, and has the contents and the mode that the index says. -/
theorem C77_noticed {E : Env} {t : Time} (ht : t.Valid) {es : List Event} {s : St} (hc : Calm E es (start t)) (hr : run E es (start t) = some s) {p : Nat}
    (h : status E s p = some (.ok false)) :
    ∃ f e, s.file = some f ∧ (s.mem p).entry = some e ∧ gitId E f.content = e.id ∧ (E.trustMode = true → fileMode f.exec = e.mode) := by
  have hi := run_inv (start_inv ht) hc hr
  unfold status at h
  cases he : (s.mem p).entry with
  | none => rw [he] at h; cases h
  | some e =>
    cases hf : s.file with
    | none => rw [he, hf] at h; cases h
    | some f =>
      rw [he, hf] at h
      dsimp only at h
      cases hv : maybeModified E e (s.mem p).stamp (statOf f) f.content with
      | err x => rw [hv] at h; cases h
      | ub => rw [hv] at h; cases h
      | ok v =>
        rw [hv] at h
        have hm : v.modified = false := by simpa using h
        have hE := hi.mem p e he
        have hl := hi.small f hf
        have hsz : (statOf f).size % 2 ^ 32 = f.content.length := Nat.mod_eq_of_lt hl
        obtain ⟨h1, h2⟩ := maybeModified_ok hE.plain.1 hE.plain.2 hv
        have hmode : ∀ m, m = newMode E e (statOf f) → E.trustMode = true → fileMode f.exec = m := by
          intro m hm ht
          rw [hm]
          unfold newMode
          rw [ht]
          rfl
        cases hcf : v.confirmed with
        | true =>
          obtain ⟨a, b⟩ := h1 hcf
          rw [hsz, hashFiltered_full E (by omega)] at a
          exact ⟨f, e, rfl, rfl, Res.ok.inj a, hmode _ b⟩
        | false =>
          obtain ⟨b, c, d, g⟩ := h2 hm hcf
          refine ⟨f, e, rfl, rfl, ?_, hmode _ b⟩
          rcases hE.ok with hok | hok
          · exact hok f hf d (by rw [c]; exact hsz)
          · rw [newer_congr d] at hok
            rw [g] at hok
            cases hok

/-- **C77 (no false alarm).** And without filters, when no two contents get the same id, a file that has the contents and the mode that the index says is not modified. -/
theorem C77_no_false_alarm {E : Env} (hfl : E.filter = none) (hinj : ∀ a b : Bytes, E.blobId a.length a = E.blobId b.length b → a = b) {t : Time} (ht : t.Valid) {es : List Event} {s : St}
    (hc : Calm E es (start t)) (hr : run E es (start t) = some s) {p : Nat} {f : File} {e : Entry} (hf : s.file = some f) (he : (s.mem p).entry = some e)
    (hid : gitId E f.content = e.id) (hm : E.trustMode = true ∧ fileMode f.exec = e.mode) : status E s p = some (.ok false) := by
  have hi := run_inv (start_inv ht) hc hr
  have hA : AllFaithful E (start t) := by
    intro e he
    rcases he with ⟨p, he⟩ | ⟨t', he⟩
    · cases he
    · cases he
  obtain ⟨c, h1, h2⟩ := run_faithful hfl (start_inv ht) hA hc hr e (.inl ⟨p, he⟩)
  have hg : gitId E f.content = E.blobId f.content.length f.content := by
    unfold gitId
    rw [hfl]
  have : c = f.content := (hinj _ _ (by rw [← hg, hid, h1])).symm
  subst this
  have hmode : e.mode = newMode E e (statOf f) := by
    unfold newMode
    rw [hm.1]
    exact hm.2.symm
  obtain ⟨v, hv, hv2⟩ := unmodified (stamp := (s.mem p).stamp) (hi.small f hf) hid hmode h2
  unfold status
  rw [he, hf]
  dsimp only
  rw [hv, Res.bind_ok, hv2]

/-! ## files of 4 GiB and more -/

/-- C77, finding: sizes are kept in 32 bits and the file is hashed with that size. A file of 4 GiB (or a multiple) is not modified if the index has the empty file. -/
theorem C77_four_gib {E : Env} (hfl : E.filter = none) {e : Entry} {stamp : Time} {f : File} (hl : f.content.length % 2 ^ 32 = 0) (hz : e.size = 0) (hid : e.id = E.blobId 0 [])
    (hm : e.mode = newMode E e (statOf f)) : ∃ v, maybeModified E e stamp (statOf f) f.content = .ok v ∧ v.modified = false := by
  have hsz : (statOf f).size % 2 ^ 32 = 0 := hl
  have hh : hashFiltered E 0 f.content = .ok (E.blobId 0 []) := by
    unfold hashFiltered
    rw [hfl]
    have h0 : hashLoop (f.content.length + 1) 0 f.content [] = ([], 0) := by
      unfold hashLoop
      rw [if_neg (fun h => absurd h.1 (Nat.lt_irrefl 0))]
    unfold hashFd
    rw [h0]
    rfl
  have hconf : confirm E e (statOf f) f.content = .ok ⟨false, true⟩ := by
    unfold confirm
    rw [hsz, hh, Res.bind_ok, hid, decide_eq_true hm]
    simp
  have hn : (entryFromStat E (statOf f) (newMode E e (statOf f)) []).size = 0 := hsz
  unfold maybeModified
  split
  · exact ⟨_, rfl, rfl⟩
  · split
    · exact ⟨_, rfl, rfl⟩
    · dsimp only
      rw [hn, if_neg (by
        rintro (h | h)
        · exact h hm
        · exact h hz)]
      split
      · exact ⟨_, hconf, rfl⟩
      · exact ⟨_, rfl, rfl⟩

/-- C77, finding: other files of 4 GiB and more cannot be compared at all once their times have changed: hashing fails. -/
theorem C77_large_error {E : Env} (hfl : E.filter = none) {c : Bytes} (h1 : 2 ^ 32 ≤ c.length) (h2 : c.length < 2 ^ 62) (h3 : c.length % 65536 ≠ 0) :
    hashFiltered E (c.length % 2 ^ 32) c = .err (-1) := by
  unfold hashFiltered
  rw [hfl]
  unfold hashFd
  dsimp only
  rw [if_pos (hashLoop_left _ _ _ _ (by omega) h2 (by omega) (by omega) (by omega))]

/-! ## examples -/

/-- the "id" is the length and the contents -/
def exEnv : Env where
  blobId := fun n c => UInt8.ofNat n :: c

def at_ (n : Nat) : Time := ⟨1000, n⟩

/-- what a history leaves the comparison of program 0 with -/
def exStatus (es : List Event) : Option (Res Bool) := (run exEnv es (start (at_ 0))).bind fun s => status exEnv s 0

/-- the file is written, added and the index written within one tick, and then the file is written again in the same tick: noticed, also after the index is written again later -/
def exRacy : List Event :=
  [.tick (at_ 1), .edit b!"aa" false 7, .addStat 0, .addRead 0, .check 0, .commit 0, .edit b!"bb" false 7, .read 1, .tick (at_ 2), .check 1, .commit 1, .read 0]
example : exStatus exRacy = some (.ok true) := by decide +kernel
example : exStatus (exRacy ++ [.tick (at_ 3), .edit b!"aa" false 7]) = some (.ok false) := by decide +kernel
example : exStatus (exRacy ++ [.tick (at_ 3), .edit b!"aa" false 7, .diffStat 0, .diffRead 0, .check 0, .commit 0]) = some (.ok false) := by decide +kernel

/-- C77: the hypotheses are met by this history -/
theorem exRacy_calm : Calm exEnv exRacy (start (at_ 0)) := by
  unfold exRacy
  refine ⟨(fun c x o h => nomatch h), fun s1 h1 => ?_⟩
  refine ⟨fun c x o h => ?_, fun s2 h2 => ?_⟩
  · cases h
    refine ⟨by decide, fun p e he => ?_, (fun h => nomatch h)⟩
    cases h1
    cases he
  · refine ⟨(fun c x o h => nomatch h), fun s3 h3 => ⟨(fun c x o h => nomatch h), fun s4 h4 => ⟨(fun c x o h => nomatch h), fun s5 h5 => ⟨(fun c x o h => nomatch h), fun s6 h6 => ⟨fun c x o h => ?_,
      fun s7 h7 => ⟨(fun c x o h => nomatch h), fun _ _ => ⟨(fun c x o h => nomatch h), fun _ _ => ⟨(fun c x o h => nomatch h), fun _ _ => ⟨(fun c x o h => nomatch h), fun _ _ =>
        ⟨(fun c x o h => nomatch h), fun _ _ => trivial⟩⟩⟩⟩⟩⟩⟩⟩⟩⟩
    cases h
    refine ⟨by decide, fun p e he _ => ?_, (fun h => nomatch h)⟩
    cases h1; cases h2; cases h3; cases h4; cases h5; cases h6
    by_cases hp : p = 0
    · subst hp
      have he := Option.some.inj he
      subst he
      exact ⟨rfl, (fun h => nomatch h)⟩
    · exfalso
      have : (none : Option Entry) = some e := by
        rw [← he]
        simp [setMem, hp, start]
      cases this

/-- C77, finding: an entry that was added is not looked at again when the index is written: a file that is written again in the tick in which it was written before it was added is not
modified once the index is written in a later tick. -/
theorem C77_added_then_changed :
    exStatus [.tick (at_ 1), .edit b!"aa" false 7, .addStat 0, .addRead 0, .edit b!"bb" false 7, .tick (at_ 2), .check 0, .commit 0] = some (.ok false) := by decide +kernel

/-- C77, finding: the mark that is put on an entry that cannot be trusted is the size 0, which is the size of an empty file: a file that is emptied in the tick in which it was written is
first noticed, and after the index has been written again not modified. -/
theorem C77_emptied :
    exStatus [.tick (at_ 1), .edit b!"aa" false 7, .addStat 0, .addRead 0, .check 0, .commit 0, .edit [] false 7] = some (.ok true) ∧
    exStatus [.tick (at_ 1), .edit b!"aa" false 7, .addStat 0, .addRead 0, .check 0, .commit 0, .edit [] false 7, .tick (at_ 2), .check 0, .commit 0] = some (.ok false) := by decide +kernel

/-- C77, finding: between looking for entries that cannot be trusted and writing the index the file can change as well. -/
theorem C77_window :
    exStatus [.tick (at_ 1), .edit b!"aa" false 7, .addStat 0, .addRead 0, .check 0, .commit 0, .check 0, .edit b!"bb" false 7, .tick (at_ 2), .commit 0] = some (.ok false) := by decide +kernel

end Verif.Racy
