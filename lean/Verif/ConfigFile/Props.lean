import Verif.ConfigFile.Lemmas5
/-! # C34: configuration values round-trip through the file -/
namespace Verif.ConfigFile
open Commit (isspace)
open ConfigVal (toLower caseEq)

theorem parts_fits {s key pre nm : Bytes} {sub : Option Bytes} (h : Parts s key pre nm sub) (preg : Option (Bytes → Bool)) :
    Fits ⟨sectionPart s, sectionPart key, namePart s, namePart key, preg⟩ key ∧ sectionOk (namePart s) = true ∧
      fullName (some (sectionPart key)) (namePart s) = key := by
  obtain ⟨hpre, hnm, h⟩ := h
  obtain ⟨_, hnk⟩ := sectionOk_keychar nm hnm
  have hnd : ∀ x ∈ nm, x ≠ 46 := fun x hx => (keychar_not x (hnk x hx)).2.2.2.2.2.2.2.1
  have hnd' : ∀ x ∈ nm.map toLower, x ≠ 46 := by
    intro x hx
    obtain ⟨y, hy, rfl⟩ := List.mem_map.1 hx
    exact (keychar_lower y (hnk y hy)).1
  have hll : ∀ x : UInt8, toLower (toLower x) = toLower x := by decide +kernel
  have hlow : (nm.map toLower).map toLower = nm.map toLower := by
    rw [List.map_map]; apply List.map_congr_left; intro x _; exact hll x
  have key1 : ∀ a b : Bytes, s = a ++ 46 :: nm → key = b ++ 46 :: nm.map toLower →
      Fits ⟨sectionPart s, sectionPart key, namePart s, namePart key, preg⟩ key ∧ sectionOk (namePart s) = true ∧
      fullName (some (sectionPart key)) (namePart s) = key := by
    rintro a b rfl rfl
    rw [sectionPart_dot _ _ hnd, sectionPart_dot _ _ hnd', namePart_dot _ _ hnd, namePart_dot _ _ hnd']
    exact ⟨⟨rfl, hlow, hnd'⟩, hnm, by simp [fullName]⟩
  cases sub with
  | none => exact key1 _ _ h.1 h.2
  | some x => exact key1 _ _ h.2.1 h.2.2

theorem out_init (t : Target) (value : Option Bytes) (v : Bytes) : Out t value v [] [] ⟨[], [], false, value, false⟩ := by
  unfold Out
  cases t.preg <;> cases value <;> simp

/-- writing a tidy file: the general statement -/
theorem write_ok {file name key v : Bytes} {ents : List Entry} {preg : Option (Bytes → Bool)} {value : Option Bytes} {file' : Bytes}
    (ht : Tidy file) (hr : readEntries file = .ok ents) (hk : normalizeName name = .ok key)
    (hv : ∀ x, value = some x → Name name ∧ Value v ∧ x = escapeValue v) (hw : fileWrite file name key preg value = .ok file') :
    ∃ ents', readEntries file' = .ok ents' ∧ Tidy file' ∧ others key ents' = others key ents ∧
      Result preg value v (values key ents) (values key ents') := by
  obtain ⟨pre, nm, sub, hparts⟩ := normalize_parts _ _ hk
  obtain ⟨hfit, hnmok, hfull⟩ := parts_fits hparts preg
  obtain ⟨p, hp, htidy⟩ := ht
  have hch : Chain none p.1 p.2 := loop_chain _ _ _ _ hp htidy
  have hents : ents = entriesOf p.1 := by
    unfold readEntries at hr
    rw [hp] at hr
    by_cases hz : file.head? = some 0
    · exfalso
      cases file with
      | nil => cases hz
      | cons a r => simp at hz; subst hz; exact nul_bad _ _ _ _ hp
    · rw [if_neg hz] at hr; exact (Res.ok.inj hr).symm
  have hval : ∀ x, value = some x → Good (valueLine (namePart name) x) (some (sectionPart key)) [(key, some v)] (some (sectionPart key)) := by
    intro x hx
    obtain ⟨_, h1, rfl⟩ := hv x hx
    have := good_value (namePart name) v (some (sectionPart key)) hnmok h1
    rwa [hfull] at this
  have hsec : value ≠ none → ∀ k, Good (sectionLine (sectionPart name)) k [] (some (sectionPart key)) := by
    intro hne k
    cases hx : value with
    | none => exact absurd hx hne
    | some x => exact good_section hparts (hv x hx).1 k
  unfold fileWrite at hw
  simp only [hp] at hw
  cases hon : onEvents ⟨sectionPart name, sectionPart key, namePart name, namePart key, preg⟩ ⟨[], [], false, value, false⟩ p.1 with
  | err e => rw [hon] at hw; cases hw
  | ub => rw [hon] at hw; cases hw
  | ok w =>
    rw [hon] at hw
    have hw := Res.ok.inj hw
    have hinv : Inv ⟨sectionPart name, sectionPart key, namePart name, namePart key, preg⟩ key value v none [] ⟨[], [], false, value, false⟩ := by
      refine ⟨by simp, Good.nil _, Good.nil, [], Good.nil _, rfl, ?_⟩
      exact out_init _ _ _
    have h1 := run_inv hfit hval hch _ _ _ hinv hon
    obtain ⟨now, c', h2, h3, h4⟩ := eof_good (t := ⟨sectionPart name, sectionPart key, namePart name, namePart key, preg⟩) hval hsec h1
    rw [hw] at h2
    obtain ⟨h5, h6⟩ := good_parse h2
    refine ⟨now, h5, h6, ?_, ?_⟩
    · rw [h3, hents]; rfl
    · rw [hents]; simpa using h4

/-- without a pattern writing does not fail -/
theorem onEvents_total (t : Target) (h : t.preg = none) (es : List Event) : ∀ w, ∃ w', onEvents t w es = .ok w' := by
  induction es with
  | nil => intro w; exact ⟨w, rfl⟩
  | cons e es ih =>
    intro w
    have : ∃ w', onEvent t w e = .ok w' := by
      cases e with
      | sect => exact ⟨_, rfl⟩
      | comment => exact ⟨_, rfl⟩
      | var cur name val raw inl u =>
        unfold onEvent onVariable matches'
        simp only [h]
        by_cases hm : w.inSection = true ∧ caseEq t.name name = true
        · simp only [hm]
          cases w.value <;> simp
        · simp only [hm]; simp
    obtain ⟨w', hw⟩ := this
    obtain ⟨w'', h2⟩ := ih w'
    exact ⟨w'', by rw [onEvents, hw]; exact h2⟩

theorem write_total {file : Bytes} (ht : Tidy file) (name key : Bytes) (value : Option Bytes) :
    ∃ file', fileWrite file name key none value = .ok file' := by
  obtain ⟨p, hp, _⟩ := ht
  obtain ⟨w, hw⟩ := onEvents_total ⟨sectionPart name, sectionPart key, namePart name, namePart key, none⟩ rfl p.1 ⟨[], [], false, value, false⟩
  refine ⟨onEof ⟨sectionPart name, sectionPart key, namePart name, namePart key, none⟩ w p.2, ?_⟩
  unfold fileWrite; simp only [hp, hw]

theorem values_nil {key : Bytes} {l : List Entry} : values key l = [] ↔ (l.filter fun e => e.1 = key) = [] := by simp [values]

theorem listGet_values (key : Bytes) (l : List Entry) : listGet l key = (values key l).getLast? := by
  unfold listGet values; rw [List.getLast?_map]

/-- **C34, setting a value**: for every tidy file, every valid name and every value, if the variable has at most one value, then setting it succeeds;
the file that is written is tidy again and holds the value that was set and, in the same order, the other variables as before. -/
theorem C34_set {file name key v : Bytes} {ents : List Entry} (ht : Tidy file) (hr : readEntries file = .ok ents)
    (hk : normalizeName name = .ok key) (hn : Name name) (hv : Value v) (hu : (values key ents).length ≤ 1) :
    ∃ file' ents', set file name v = .ok file' ∧ Tidy file' ∧ readEntries file' = .ok ents' ∧
      others key ents' = others key ents ∧ values key ents' = [some v] ∧ listGet ents' key = some (some v) := by
  have main : ∀ file', fileWrite file name key none (some (escapeValue v)) = .ok file' → ∃ ents', Tidy file' ∧ readEntries file' = .ok ents' ∧
      others key ents' = others key ents ∧ values key ents' = [some v] ∧ listGet ents' key = some (some v) := by
    intro file' hw
    obtain ⟨ents', h1, h2, h3, h4⟩ := write_ok ht hr hk (fun x hx => ⟨hn, hv, (Option.some.inj hx).symm⟩) hw
    have h4' : values key ents' = [some v] := h4
    exact ⟨ents', h2, h1, h3, h4', by rw [listGet_values, h4']; rfl⟩
  obtain ⟨file', hw⟩ := write_total ht name key (some (escapeValue v))
  have hlen : (ents.filter fun e => decide (e.1 = key)).length ≤ 1 := by simpa [values] using hu
  unfold set
  simp only [hk, hr]
  generalize hf : (ents.filter fun e => decide (e.1 = key)) = fl at hlen ⊢
  match fl, hf, hlen with
  | [], _, _ =>
    obtain ⟨ents', h⟩ := main file' hw
    exact ⟨file', ents', hw, h⟩
  | [e], hf, _ =>
    simp only
    by_cases he : e.2 = some v
    · rw [if_pos he]
      have hval : values key ents = [some v] := by unfold values; rw [hf]; simp [he]
      exact ⟨file, ents, rfl, ht, hr, rfl, hval, by rw [listGet_values, hval]; rfl⟩
    · rw [if_neg he]
      obtain ⟨ents', h⟩ := main file' hw
      exact ⟨file', ents', hw, h⟩
  | a :: b :: r, _, hlen => simp at hlen

/-- **C34, a variable with several values, or an invalid name**: setting or deleting it is refused. -/
theorem C34_refused {file name v : Bytes} :
    (∀ e, normalizeName name = .err e → set file name v = .err e ∧ delete file name = .err e) ∧
    (∀ key ents, normalizeName name = .ok key → readEntries file = .ok ents → 2 ≤ (values key ents).length →
      set file name v = .err (-1) ∧ delete file name = .err (-1)) ∧
    (∀ key ents, normalizeName name = .ok key → readEntries file = .ok ents → values key ents = [] → delete file name = .err (-3)) := by
  refine ⟨?_, ?_, ?_⟩
  · intro e h; unfold set delete; simp only [h]; exact ⟨trivial, trivial⟩
  · intro key ents hk hr h2
    have hlen : 2 ≤ (ents.filter fun e => decide (e.1 = key)).length := by simpa [values] using h2
    unfold set delete
    simp only [hk, hr]
    generalize (ents.filter fun e => decide (e.1 = key)) = fl at hlen ⊢
    match fl, hlen with
    | [], h => simp at h
    | [e], h => simp at h
    | a :: b :: r, _ => exact ⟨rfl, rfl⟩
  · intro key ents hk hr h2
    unfold delete
    simp only [hk, hr, values_nil.1 h2]

/-- **C34, deleting a variable**: what is written is tidy, holds the other variables as before, and not the deleted one. -/
theorem C34_delete {file name key : Bytes} {ents : List Entry} (ht : Tidy file) (hr : readEntries file = .ok ents)
    (hk : normalizeName name = .ok key) (hu : (values key ents).length = 1) :
    ∃ file' ents', delete file name = .ok file' ∧ Tidy file' ∧ readEntries file' = .ok ents' ∧
      others key ents' = others key ents ∧ values key ents' = [] ∧ listGet ents' key = none := by
  obtain ⟨file', hw⟩ := write_total ht name key none
  obtain ⟨ents', h1, h2, h3, h4⟩ := write_ok (v := []) ht hr hk (fun x hx => by cases hx) hw
  have h4' : values key ents' = [] := h4
  have hlen : (ents.filter fun e => decide (e.1 = key)).length = 1 := by simpa [values] using hu
  refine ⟨file', ents', ?_, h2, h1, h3, h4', by rw [listGet_values, h4']; rfl⟩
  unfold delete
  simp only [hk, hr]
  generalize hf : (ents.filter fun e => decide (e.1 = key)) = fl at hlen ⊢
  match fl, hf, hlen with
  | [], _, h => simp at h
  | [e], hf, _ =>
    simp only
    have : e ∈ ents.filter fun e => decide (e.1 = key) := by rw [hf]; simp
    have he : e.1 = key := by simpa using (List.mem_filter.1 this).2
    rw [he]; exact hw
  | a :: b :: r, _, h => simp at h

/-- characters that the file stands for as they are -/
def Unescaped (v : Bytes) : Prop := ∀ c ∈ v, c ∉ b!"\n\t\x08\"\\"

theorem unescaped_eq (v : Bytes) (h : Unescaped v) : escapeValue v = v := by
  induction v with
  | nil => rfl
  | cons c v ih =>
    rw [escapeValue_cons, ih (fun x hx => h x (by simp [hx]))]
    rcases escapeOf_cases c with ⟨hc, _⟩ | ⟨e, _, _, _, hc, _⟩
    · rw [hc]; rfl
    · exact absurd (h c (by simp)) (by rcases hc with rfl | rfl | rfl | rfl | rfl <;> decide)

/-- **C34, setting several values by a pattern**: exactly the values of the variable that match are replaced, each in its place, and if none matches the
value is added; the other variables are as before. The value must not need escapes, as `git_config_set_multivar` writes it as it is. -/
theorem C34_set_multivar {file name key v : Bytes} {p : Bytes → Bool} {ents : List Entry} {file' : Bytes} (ht : Tidy file)
    (hr : readEntries file = .ok ents) (hk : normalizeName name = .ok key) (hn : Name name) (hv : Value v) (hu : Unescaped v)
    (hw : setMultivar file name p v = .ok file') :
    ∃ ents', Tidy file' ∧ readEntries file' = .ok ents' ∧ others key ents' = others key ents ∧
      values key ents' = if (values key ents).any (fun o => p (o.getD [])) then (values key ents).map (fun o => if p (o.getD []) then some v else o)
        else values key ents ++ [some v] := by
  unfold setMultivar at hw
  simp only [hk] at hw
  obtain ⟨ents', h1, h2, h3, h4⟩ := write_ok ht hr hk (fun x hx => ⟨hn, hv, by rw [unescaped_eq v hu]; exact (Option.some.inj hx).symm⟩) hw
  exact ⟨ents', h2, h1, h3, h4.2⟩

/-- **C34, deleting values by a pattern**: exactly the values of the variable that match are removed. -/
theorem C34_delete_multivar {file name key : Bytes} {p : Bytes → Bool} {ents : List Entry} {file' : Bytes} (ht : Tidy file)
    (hr : readEntries file = .ok ents) (hk : normalizeName name = .ok key) (hw : deleteMultivar file name p = .ok file') :
    ∃ ents', Tidy file' ∧ readEntries file' = .ok ents' ∧ others key ents' = others key ents ∧
      values key ents' = (values key ents).filter (fun o => !(p (o.getD []))) := by
  unfold deleteMultivar at hw
  simp only [hk, hr] at hw
  by_cases hf : (ents.filter fun e => decide (e.1 = key)) = []
  · rw [if_pos hf] at hw; cases hw
  · rw [if_neg hf] at hw
    obtain ⟨ents', h1, h2, h3, h4⟩ := write_ok (v := []) ht hr hk (fun x hx => by cases hx) hw
    exact ⟨ents', h2, h1, h3, h4.2⟩

/-! ### histories -/

/-- a call of `git_config_set_string` (with a value) or of `git_config_delete_entry` -/
structure Op where
  name : Bytes
  value : Option Bytes

/-- one call -/
def step (file : Bytes) (o : Op) : Res Bytes :=
  match o.value with
  | some v => set file o.name v
  | none => delete file o.name

/-- calls one after the other; a call that fails leaves the file as it is -/
def runOps (file : Bytes) : List Op → Bytes
  | [] => file
  | o :: os => runOps (match step file o with | .ok f => f | _ => file) os

/-- the effect a call should have on the values of the variables -/
def effect (m : Bytes → List (Option Bytes)) (o : Op) : Bytes → List (Option Bytes) :=
  match normalizeName o.name with
  | .ok key => if 2 ≤ (m key).length then m else fun k => if k = key then (match o.value with | some v => [some v] | none => []) else m k
  | _ => m

theorem values_of_others {key k : Bytes} {a b : List Entry} (h : others key a = others key b) (hk : k ≠ key) : values k a = values k b := by
  have : ∀ l : List Entry, (l.filter fun e => decide (e.1 = k)) = ((others key l).filter fun e => decide (e.1 = k)) := by
    intro l
    unfold others
    rw [List.filter_filter]
    apply List.filter_congr
    intro e _
    by_cases he : e.1 = k <;> simp [he, hk]
  unfold values
  rw [this a, this b, h]

theorem normalize_res (s : Bytes) : (∃ key, normalizeName s = .ok key) ∨ ∃ e, normalizeName s = .err e := by
  cases h : normalizeName s with
  | ok key => exact Or.inl ⟨key, rfl⟩
  | err e => exact Or.inr ⟨e, rfl⟩
  | ub =>
    exfalso
    unfold normalizeName at h
    simp only at h
    split at h
    · cases h
    · split at h
      · cases h
      · split at h <;> cases h

/-- **C34, histories**: after any calls of set and delete, with values and names that survive, the variables have the values the calls gave them. -/
theorem C34_history (ops : List Op) (hops : ∀ o ∈ ops, Name o.name ∧ ∀ v, o.value = some v → Value v) :
    ∀ {file : Bytes} {ents : List Entry}, Tidy file → readEntries file = .ok ents →
    ∃ ents', Tidy (runOps file ops) ∧ readEntries (runOps file ops) = .ok ents' ∧
      ∀ k, values k ents' = ops.foldl effect (fun k => values k ents) k := by
  induction ops with
  | nil => intro file ents ht hr; exact ⟨ents, ht, hr, fun _ => rfl⟩
  | cons o os ih =>
    intro file ents ht hr
    have hstep : ∃ ents1, Tidy (match step file o with | .ok f => f | _ => file) ∧
        readEntries (match step file o with | .ok f => f | _ => file) = .ok ents1 ∧ (fun k => values k ents1) = effect (fun k => values k ents) o := by
      have ho := hops o (by simp)
      rcases normalize_res o.name with ⟨key, hk⟩ | ⟨e, he⟩
      · unfold effect
        rw [hk]
        simp only
        by_cases h2 : 2 ≤ (values key ents).length
        · have hs : step file o = .err (-1) := by
            unfold step
            cases o.value with
            | none => exact ((C34_refused (v := [])).2.1 key ents hk hr h2).2
            | some v => exact (C34_refused.2.1 key ents hk hr h2).1
          rw [hs, if_pos h2]
          exact ⟨ents, ht, hr, rfl⟩
        · rw [if_neg h2]
          cases hv : o.value with
          | some v =>
            obtain ⟨f', ents', h3, h4, h5, h6, h7, _⟩ := C34_set ht hr hk ho.1 (ho.2 v hv) (by omega)
            have hs : step file o = .ok f' := by unfold step; rw [hv]; exact h3
            rw [hs]
            refine ⟨ents', h4, h5, ?_⟩
            funext k
            by_cases hkk : k = key
            · subst hkk; simp [h7]
            · rw [if_neg hkk]; exact values_of_others h6 hkk
          | none =>
            by_cases h0 : values key ents = []
            · have hs : step file o = .err (-3) := by
                unfold step; rw [hv]; exact (C34_refused (v := [])).2.2 key ents hk hr h0
              rw [hs]
              refine ⟨ents, ht, hr, ?_⟩
              funext k
              by_cases hkk : k = key
              · subst hkk; simp [h0]
              · rw [if_neg hkk]
            · have h1 : (values key ents).length = 1 := by
                have : (values key ents).length ≠ 0 := fun e => h0 (List.length_eq_zero_iff.1 e)
                omega
              obtain ⟨f', ents', h3, h4, h5, h6, h7, _⟩ := C34_delete ht hr hk h1
              have hs : step file o = .ok f' := by unfold step; rw [hv]; exact h3
              rw [hs]
              refine ⟨ents', h4, h5, ?_⟩
              funext k
              by_cases hkk : k = key
              · subst hkk; simp [h7]
              · rw [if_neg hkk]; exact values_of_others h6 hkk
      · have hs : step file o = .err e := by
          unfold step
          cases o.value with
          | none => exact ((C34_refused (v := [])).1 e he).2
          | some v => exact (C34_refused.1 e he).1
        rw [hs]
        refine ⟨ents, ht, hr, ?_⟩
        unfold effect; rw [he]
    obtain ⟨ents1, h1, h2, h3⟩ := hstep
    obtain ⟨ents', h4, h5, h6⟩ := ih (fun o ho => hops o (by simp [ho])) h1 h2
    refine ⟨ents', h4, h5, ?_⟩
    intro k
    rw [h6, h3]
    rfl

/-! ### where the assumptions are needed -/

/-- a carriage return at the end of a value is lost -/
theorem C34_lost_cr : ∃ f, set [] b!"a.b" b!"x\r" = .ok f ∧ readEntries f = .ok [(b!"a.b", some b!"x")] := by
  refine ⟨b!"[a]\n\tb = x\r\n", ?_, ?_⟩ <;> decide +kernel

/-- a tab in a subsection is written as an escape that the reader does not know: the value that was set cannot be found -/
theorem C34_lost_tab : ∃ f, set [] b!"a.x\ty.b" b!"v" = .ok f ∧ readEntries f = .ok [(b!"a.xty.b", some b!"v")] := by
  refine ⟨b!"[a \"x\\ty\"]\n\tb = v\n", ?_, ?_⟩ <;> decide +kernel

/-- a variable on the line of its section header is written twice: another variable gets a second value, and cannot be set any more -/
theorem C34_header_line : ∃ f, set b!"[a] b = c\n" b!"x.y" b!"v" = .ok f ∧
    readEntries b!"[a] b = c\n" = .ok [(b!"a.b", some b!"c")] ∧
    readEntries f = .ok [(b!"a.b", some b!"c"), (b!"a.b", some b!"c"), (b!"x.y", some b!"v")] ∧ set f b!"a.b" b!"d" = .err (-1) := by
  refine ⟨b!"[a] b = c\n b = c\n[x]\n\ty = v\n", ?_, ?_, ?_, ?_⟩ <;> decide +kernel

/-- deleting a variable on the line of its section header does not delete it -/
theorem C34_header_delete : ∃ f, delete b!"[a] b = c\n" b!"a.b" = .ok f ∧ readEntries f = .ok [(b!"a.b", some b!"c")] := by
  refine ⟨b!"[a] b = c\n", ?_, ?_⟩ <;> decide +kernel

/-- a file that ends in a continued value swallows the line that is appended: a variable changes and another is not set -/
theorem C34_continued : ∃ f, set b!"[a]\nx = a\\" b!"a.b" b!"v" = .ok f ∧ readEntries b!"[a]\nx = a\\" = .ok [(b!"a.x", some b!"a")] ∧
    readEntries f = .ok [(b!"a.x", some b!"a\tb = v")] := by
  refine ⟨b!"[a]\nx = a\\\n\tb = v\n", ?_, ?_, ?_⟩ <;> decide +kernel

/-- `git_config_set_multivar` does not escape: a newline in the value sets another variable -/
theorem C34_multivar_inject : ∃ f, setMultivar [] b!"a.b" (fun _ => true) b!"v\n[core]\n\tpager = evil" = .ok f ∧
    readEntries f = .ok [(b!"a.b", some b!"v"), (b!"core.pager", some b!"evil")] := by
  refine ⟨b!"[a]\n\tb = v\n[core]\n\tpager = evil\n", ?_, ?_⟩ <;> decide +kernel

/-- a pattern is matched against the missing value of a variable without `=`: `NULL` is dereferenced -/
theorem C34_multivar_null : setMultivar b!"[a]\nb\n" b!"a.b" (fun _ => true) b!"v" = .ub := by decide +kernel

/-- a comment on the line of a section header is written once more with every change -/
theorem C34_comment_twice : set b!"[a] # c\n" b!"a.b" b!"v" = .ok b!"[a] # c\n # c\n\tb = v\n" ∧
    set b!"[a] # c\n # c\n\tb = v\n" b!"a.b" b!"w" = .ok b!"[a] # c\n # c\n # c\n\tb = w\n" := by decide +kernel

/-! ### concrete cases -/

def sample : Bytes := b!"; top\n[core]\n\tbare = false\n[remote \"or\\\"igin\"] # here\n\turl = \"a;b\" ; c\n\tpush = x \\\n  y\n[core]\n\tEditor = vi"

theorem sample_tidy : Tidy sample := by
  refine ⟨([.comment b!"; top\n" false, .sect b!"core" b!"[core]\n" false, .var (some b!"core") b!"bare" (some b!"false") b!"\tbare = false\n" false false,
    .sect b!"remote.or\"igin" b!"[remote \"or\\\"igin\"] # here\n" false, .comment b!" # here\n" true,
    .var (some b!"remote.or\"igin") b!"url" (some b!"a;b") b!"\turl = \"a;b\" ; c\n" false false,
    .var (some b!"remote.or\"igin") b!"push" (some b!"x   y") b!"\tpush = x \\\n  y\n" false false,
    .sect b!"core" b!"[core]\n" false, .var (some b!"core") b!"Editor" (some b!"vi") b!"\tEditor = vi" false false], some b!"core"), ?_, ?_⟩
  · decide +kernel
  · intro e he
    simp only [List.mem_cons, List.not_mem_nil, or_false] at he
    rcases he with rfl | rfl | rfl | rfl | rfl | rfl | rfl | rfl | rfl <;> simp [TidyEvent]

example : readEntries sample = .ok [(b!"core.bare", some b!"false"), (b!"remote.or\"igin.url", some b!"a;b"), (b!"remote.or\"igin.push", some b!"x   y"),
    (b!"core.editor", some b!"vi")] := by decide +kernel

/-- the value set in the second section of that name replaces the old one there; the first gets it -/
example : set sample b!"core.editor" b!" e#\\\n" = .ok (b!"; top\n[core]\n\tbare = false\n\teditor = \" e#\\\\\\n\"\n[remote \"or\\\"igin\"] # here\n # here\n" ++
    b!"\turl = \"a;b\" ; c\n\tpush = x \\\n  y\n[core]\n") := by decide +kernel

example : ∃ file' ents', set sample b!"Core.Editor" b!" e#\\\n" = .ok file' ∧ Tidy file' ∧ readEntries file' = .ok ents' ∧
    values b!"core.editor" ents' = [some b!" e#\\\n"] := by
  obtain ⟨f, e, h1, h2, h3, _, h5, _⟩ := C34_set (file := sample) (name := b!"Core.Editor") (key := b!"core.editor") (v := b!" e#\\\n")
    (ents := [(b!"core.bare", some b!"false"), (b!"remote.or\"igin.url", some b!"a;b"), (b!"remote.or\"igin.push", some b!"x   y"),
      (b!"core.editor", some b!"vi")]) sample_tidy (by decide +kernel) (by decide +kernel) (by unfold Name; decide) ⟨by decide, Or.inr (Or.inl rfl)⟩ (by decide +kernel)
  exact ⟨f, e, h1, h2, h3, h5⟩

example : Value b!"plain value" := ⟨by decide, Or.inr (Or.inr (Or.inr ⟨by intro c h; simp at h; subst h; decide, by intro c h; simp at h; subst h; decide⟩))⟩
example : ¬Value b!"x\r" := by
  rintro ⟨_, ⟨c, h1, h2⟩ | h | h | h⟩
  · simp at h2; rcases h1 with rfl | rfl <;> simp at h2
  · simp at h
  · simp at h
  · exact absurd (h.2 13 rfl) (by decide)

example : delete sample b!"remote.or\"igin.url" = .ok
    b!"; top\n[core]\n\tbare = false\n[remote \"or\\\"igin\"] # here\n # here\n\tpush = x \\\n  y\n[core]\n\tEditor = vi\n" := by decide +kernel

example : setMultivar b!"[a]\nb = 1\nb = 2\nb = 3\n" b!"a.b" (fun v => v ≠ b!"2") b!"9" = .ok b!"[a]\n\tb = 9\nb = 2\n\tb = 9\n" := by decide +kernel
example : deleteMultivar b!"[a]\nb = 1\nb = 2\nb = 3\n" b!"a.b" (fun v => v ≠ b!"2") = .ok b!"[a]\nb = 2\n" := by decide +kernel

end Verif.ConfigFile
