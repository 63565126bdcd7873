import Verif.ConfigLevels.Spec
import Verif.ConfigLevels.Lemmas
import Batteries.Data.List.Basic
/-! # C36: configurations of several levels -/
namespace Verif.ConfigLevels
open ConfigFile (Entry readEntries listGet normalizeName values others Tidy Name Value)

theorem reach_good {c : Config} (h : Reach c) : Good c := by
  induction h with
  | new => exact good_new
  | add _ ha ih => exact good_add ih ha
  | order _ ha ih => exact good_order ih ha
  | level _ ha _ =>
    unfold openLevel at ha
    split at ha
    · exact good_add good_new ha
    · cases ha
    · cases ha

/-- **C36, the levels**: in every configuration the backends are in strictly decreasing order of their levels, at most one per level, and each of
them is also among those that may be written. -/
theorem C36_reachable {c : Config} (h : Reach c) :
    (c.readers.items.Pairwise fun a b => b.level < a.level) ∧ c.writers.items.Perm c.readers.items :=
  ⟨(reach_good h).desc, (reach_good h).same⟩

theorem backendGet_defines {st : Store} {e : BEntry} {key : Bytes} {v : Option Bytes} (h : Defines st e key v) : backendGet (st e.inst) key = .ok v := by
  obtain ⟨l, h1, h2⟩ := h
  unfold backendGet
  simp only [h1, ConfigFile.listGet_values, h2]

theorem backendGet_lacks {st : Store} {e : BEntry} {key : Bytes} (h : Lacks st e key) : backendGet (st e.inst) key = .err ENOTFOUND := by
  obtain ⟨l, h1, h2⟩ := h
  unfold backendGet
  simp only [h1, ConfigFile.listGet_values, h2, List.getLast?_nil]

theorem getLoop_skip {st : Store} {key : Bytes} : ∀ {l m : List BEntry}, (∀ e ∈ l, Lacks st e key) → getLoop st key (l ++ m) = getLoop st key m
  | [], _, _ => rfl
  | e :: l, m, h => by
    rw [List.cons_append, getLoop, backendGet_lacks (h e (by simp))]
    simp only [ne_eq, not_true_eq_false, if_false]
    exact getLoop_skip (fun x hx => h x (by simp [hx]))

theorem split_at {l : List BEntry} (hd : Desc l) {e : BEntry} (he : e ∈ l) :
    ∃ a b, l = a ++ e :: b ∧ (∀ x ∈ a, e.level < x.level) ∧ (∀ x ∈ b, x.level < e.level) := by
  obtain ⟨a, b, rfl⟩ := List.append_of_mem he
  unfold Desc at hd
  rw [List.pairwise_append] at hd
  exact ⟨a, b, rfl, fun x hx => hd.2.2 x hx e (by simp), fun x hx => (List.pairwise_cons.1 hd.2.1).1 x hx⟩

theorem first_defined (st : Store) (key : Bytes) : ∀ (l : List BEntry), (∀ e ∈ l, ∃ x, readAll (st e.inst) = .ok x) →
    (∀ e ∈ l, Lacks st e key) ∨ ∃ a e b v, l = a ++ e :: b ∧ (∀ x ∈ a, Lacks st x key) ∧ Defines st e key v
  | [], _ => .inl (by simp)
  | e :: l, h => by
    obtain ⟨x, hx⟩ := h e (by simp)
    cases hv : (values key x).getLast? with
    | some v => exact .inr ⟨[], e, l, v, rfl, by simp, x, hx, hv⟩
    | none =>
      have he : Lacks st e key := ⟨x, hx, by simpa using hv⟩
      rcases first_defined st key l (fun y hy => h y (by simp [hy])) with h1 | ⟨a, e', b, v, h1, h2, h3⟩
      · exact .inl (fun y hy => (List.mem_cons.1 hy).elim (fun hy => hy ▸ he) (h1 y))
      · refine .inr ⟨e :: a, e', b, v, by rw [h1]; rfl, ?_, h3⟩
        intro y hy
        rcases List.mem_cons.1 hy with rfl | hy
        · exact he
        · exact h2 y hy

/-- **C36, lookup**: a lookup gives the value of a backend that defines the variable, the last one there, if all backends of higher levels lack it. -/
theorem C36_get {st : Store} {c : Config} {name key : Bytes} (h : Reach c) (hk : normalizeName name = .ok key) {e : BEntry} {v : Option Bytes}
    (he : e ∈ c.readers.items) (hd : Defines st e key v) (hh : ∀ x ∈ c.readers.items, e.level < x.level → Lacks st x key) :
    get st c name = .ok v := by
  obtain ⟨a, b, h1, h2, _⟩ := split_at (reach_good h).desc he
  unfold get
  simp only [hk, h1]
  rw [getLoop_skip (fun x hx => hh x (by rw [h1]; simp [hx]) (h2 x hx)), getLoop, backendGet_defines hd]

/-- **C36, lookup of something that is nowhere**. -/
theorem C36_get_none {st : Store} {c : Config} {name key : Bytes} (hk : normalizeName name = .ok key)
    (hh : ∀ x ∈ c.readers.items, Lacks st x key) : get st c name = .err ENOTFOUND := by
  unfold get
  simp only [hk]
  have := getLoop_skip (m := []) hh
  rw [List.append_nil] at this
  rw [this]; rfl

/-- **C36, lookup, all cases**: if all backends can be read, then a lookup gives `v` exactly when some backend defines the variable so and those of
higher levels lack it, and is not found exactly when all lack it. -/
theorem C36_get_iff {st : Store} {c : Config} {name key : Bytes} (h : Reach c) (hr : Readable st c) (hk : normalizeName name = .ok key) :
    (∀ v, get st c name = .ok v ↔ ∃ e ∈ c.readers.items, Defines st e key v ∧ ∀ x ∈ c.readers.items, e.level < x.level → Lacks st x key) ∧
    (get st c name = .err ENOTFOUND ↔ ∀ x ∈ c.readers.items, Lacks st x key) := by
  rcases first_defined st key c.readers.items hr with h1 | ⟨a, e, b, v, h1, h2, h3⟩
  · have hg := C36_get_none (c := c) hk h1
    refine ⟨fun v => ⟨fun hv => by (rw [hg] at hv; cases hv), ?_⟩, fun _ => h1, fun _ => hg⟩
    rintro ⟨e, he, ⟨l, hl, hd⟩, _⟩
    obtain ⟨l', hl', hn⟩ := h1 e he
    rw [hl] at hl'
    rw [Res.ok.inj hl', hn] at hd
    cases hd
  · have he : e ∈ c.readers.items := by rw [h1]; simp
    have hhi : ∀ x ∈ c.readers.items, e.level < x.level → Lacks st x key := by
      intro x hx hlt
      have hd := (reach_good h).desc
      rw [h1] at hx hd
      rcases List.mem_append.1 hx with hx | hx
      · exact h2 x hx
      · exfalso
        unfold Desc at hd
        rcases List.mem_cons.1 hx with rfl | hx
        · omega
        · have := (List.pairwise_cons.1 (List.pairwise_append.1 hd).2.1).1 x hx; omega
    have hg := C36_get h hk he h3 hhi
    refine ⟨fun w => ⟨?_, ?_⟩, ?_, ?_⟩
    · intro hw
      rw [hg] at hw
      rw [← Res.ok.inj hw]
      exact ⟨e, he, h3, hhi⟩
    · rintro ⟨e', he', h3', hh'⟩
      exact C36_get h hk he' h3' hh'
    · intro hn; rw [hg] at hn; cases hn
    · intro hall
      obtain ⟨l, hl, hd⟩ := h3
      obtain ⟨l', hl', hn⟩ := hall e he
      rw [hl] at hl'
      rw [Res.ok.inj hl', hn] at hd
      cases hd

/-- **C36, a backend that cannot be read** stops a lookup with its error, if no higher level has the variable. -/
theorem C36_get_error {st : Store} {c : Config} {name key : Bytes} (h : Reach c) (hk : normalizeName name = .ok key) {e : BEntry} {r : Int}
    (he : e ∈ c.readers.items) (hd : readAll (st e.inst) = .err r) (hne : r ≠ ENOTFOUND)
    (hh : ∀ x ∈ c.readers.items, e.level < x.level → Lacks st x key) : get st c name = .err r := by
  obtain ⟨a, b, h1, h2, _⟩ := split_at (reach_good h).desc he
  have hb : backendGet (st e.inst) key = .err r := by unfold backendGet; simp only [hd]
  unfold get
  simp only [hk, h1]
  rw [getLoop_skip (fun x hx => hh x (by rw [h1]; simp [hx]) (h2 x hx)), getLoop, hb]
  simp only [ne_eq, hne, not_false_eq_true, if_true]

theorem iterLoop_ok (st : Store) : ∀ (l : List BEntry), (∀ e ∈ l, ∃ x, readAll (st e.inst) = .ok x) →
    ∃ r, iterLoop st l = .ok r ∧ ∀ a b e x, l = a ++ e :: b → readAll (st e.inst) = .ok x → ∃ r1 r2, iterLoop st a = .ok r1 ∧ iterLoop st b = .ok r2 ∧ r = r1 ++ x ++ r2
  | [], _ => ⟨[], rfl, by intro a b e x h; simp at h⟩
  | e :: l, h => by
    obtain ⟨x, hx⟩ := h e (by simp)
    obtain ⟨r, hr, hr'⟩ := iterLoop_ok st l (fun y hy => h y (by simp [hy]))
    refine ⟨x ++ r, by rw [iterLoop]; simp only [hx, hr, Res.bind_ok], ?_⟩
    intro a b e' x' hab hx'
    cases a with
    | nil =>
      simp only [List.nil_append, List.cons.injEq] at hab
      obtain ⟨rfl, rfl⟩ := hab
      rw [hx] at hx'
      exact ⟨[], r, rfl, hr, by rw [Res.ok.inj hx']; rfl⟩
    | cons y a =>
      simp only [List.cons_append, List.cons.injEq] at hab
      obtain ⟨rfl, hab⟩ := hab
      obtain ⟨r1, r2, h1, h2, h3⟩ := hr' a b e' x' hab hx'
      refine ⟨x ++ r1, r2, by rw [iterLoop]; simp only [hx, h1, Res.bind_ok], h2, by rw [h3]; simp⟩

theorem iterLoop_lacks {st : Store} {key : Bytes} : ∀ {l : List BEntry} {r : List Entry}, (∀ e ∈ l, Lacks st e key) → iterLoop st l = .ok r → values key r = []
  | [], r, _, h => by rw [← Res.ok.inj h]; rfl
  | e :: l, r, hl, h => by
    obtain ⟨x, hx, hv⟩ := hl e (by simp)
    rw [iterLoop] at h
    simp only [hx] at h
    cases hr : iterLoop st l with
    | ok r' =>
      rw [hr] at h
      rw [← Res.ok.inj h]
      have := iterLoop_lacks (fun y hy => hl y (by simp [hy])) hr
      unfold values at *
      rw [List.filter_append, List.map_append, hv, this]; rfl
    | err e => rw [hr] at h; cases h
    | ub => rw [hr] at h; cases h

theorem values_append (key : Bytes) (a b : List Entry) : values key (a ++ b) = values key a ++ values key b := by
  unfold values; rw [List.filter_append, List.map_append]

/-- the entries of the backends, one after the other -/
theorem iterLoop_flat (st : Store) : ∀ {l : List BEntry} {r : List Entry}, (∀ e ∈ l, ∃ x, readAll (st e.inst) = .ok x) → iterLoop st l = .ok r →
    ∃ xs : List (List Entry), List.Forall₂ (fun e x => readAll (st e.inst) = .ok x) l xs ∧ r = xs.flatten
  | [], r, _, h => ⟨[], .nil, by rw [← Res.ok.inj h]; rfl⟩
  | e :: l, r, hl, h => by
    obtain ⟨x, hx⟩ := hl e (by simp)
    obtain ⟨r', hr, _⟩ := iterLoop_ok st l (fun y hy => hl y (by simp [hy]))
    rw [iterLoop] at h
    simp only [hx, hr, Res.bind_ok] at h
    obtain ⟨xs, h1, h2⟩ := iterLoop_flat st (fun y hy => hl y (by simp [hy])) hr
    exact ⟨x :: xs, .cons hx h1, by rw [← Res.ok.inj h, h2]; rfl⟩

/-- **C36, iterating**: an iterator goes through all entries of all backends, backends in increasing order of their levels, entries in the order of the
file; so the last entry of a variable that is seen is the one a lookup gives. -/
theorem C36_iterate {st : Store} {c : Config} (h : Reach c) (hr : Readable st c) :
    ∃ (order : List BEntry) (xs : List (List Entry)), iterate st c = .ok xs.flatten ∧ order.Perm c.readers.items ∧
      (order.Pairwise fun a b => a.level < b.level) ∧ List.Forall₂ (fun e x => readAll (st e.inst) = .ok x) order xs ∧
      ∀ name key v, normalizeName name = .ok key → (get st c name = .ok v ↔ (values key xs.flatten).getLast? = some v) := by
  have hr' : ∀ e ∈ c.readers.items.reverse, ∃ x, readAll (st e.inst) = .ok x := fun e he => hr e (by simpa using he)
  obtain ⟨r, hi, hsp⟩ := iterLoop_ok st _ hr'
  obtain ⟨xs, hx1, hx2⟩ := iterLoop_flat st hr' hi
  refine ⟨c.readers.items.reverse, xs, by unfold iterate; rw [hi, hx2], List.reverse_perm _, List.pairwise_reverse.2 (reach_good h).desc, hx1, ?_⟩
  intro name key v hk
  rw [← hx2]
  rcases first_defined st key c.readers.items hr with h1 | ⟨a, e, b, w, h1, h2, h3⟩
  · rw [C36_get_none hk h1, iterLoop_lacks (fun x hx => h1 x (by simpa using hx)) hi]
    constructor <;> intro h <;> cases h
  · obtain ⟨l, hl, hlast⟩ := h3
    have hg : get st c name = .ok w := by
      unfold get
      simp only [hk, h1]
      rw [getLoop_skip h2, getLoop, backendGet_defines ⟨l, hl, hlast⟩]
    obtain ⟨r1, r2, hb, ha, he⟩ := hsp b.reverse a.reverse e l (by rw [h1]; simp) hl
    have hv2 : values key r2 = [] := iterLoop_lacks (fun x hx => h2 x (by simpa using hx)) ha
    have : (values key r).getLast? = some w := by
      rw [he, values_append, values_append, hv2, List.append_nil, List.getLast?_append, hlast]; rfl
    rw [hg, this]
    constructor
    · intro h; rw [Res.ok.inj h]
    · intro h; rw [Option.some.inj h]

theorem multivarLoop_none (key : Bytes) : ∀ (l : List Entry), multivarLoop key none l = .ok (l.filter fun e => e.1 = key)
  | [] => rfl
  | e :: l => by
    rw [multivarLoop]
    by_cases he : e.1 = key
    · rw [if_neg (by simpa using he), List.filter_cons_of_pos (by simpa using he)]
      simp only [multivarLoop_none key l, Res.bind_ok]
    · rw [if_pos he, List.filter_cons_of_neg (by simpa using he), multivarLoop_none key l]

theorem multivarLoop_some (key : Bytes) (p : Bytes → Bool) : ∀ (l : List Entry), (∀ e ∈ l, e.1 = key → e.2 ≠ none) →
    multivarLoop key (some p) l = .ok (l.filter fun e => e.1 = key && p (e.2.getD []))
  | [], _ => rfl
  | e :: l, h => by
    have ih := multivarLoop_some key p l (fun x hx => h x (by simp [hx]))
    rw [multivarLoop]
    by_cases he : e.1 = key
    · rw [if_neg (by simpa using he)]
      obtain ⟨k, v⟩ := e
      have hv := h (k, v) (by simp) he
      cases v with
      | none => exact absurd rfl hv
      | some v =>
        simp only at he ⊢
        cases hp : p v with
        | true => rw [List.filter_cons_of_pos (by simp [he, hp])]; simp only [ih, Res.bind_ok, if_true]
        | false => rw [List.filter_cons_of_neg (by simp [hp]), ih]; rfl
    · rw [if_pos he, List.filter_cons_of_neg (by simp [he]), ih]

/-- **C36, multivars**: the values of a variable in all backends, lowest level first, those that match if an expression is given. -/
theorem C36_multivar {st : Store} {c : Config} {name key : Bytes} {l : List Entry} (hk : normalizeName name = .ok key) (hi : iterate st c = .ok l) :
    (values key l = [] → getMultivar st c name none = .err ENOTFOUND) ∧
    (values key l ≠ [] → ∃ r, getMultivar st c name none = .ok r ∧ r.map (·.2) = values key l ∧ ∀ e ∈ r, e.1 = key) ∧
    (∀ p, none ∉ values key l → ∀ r, getMultivar st c name (some p) = .ok r → r.map (·.2) = (values key l).filter (fun v => p (v.getD []))) := by
  refine ⟨?_, ?_, ?_⟩
  · intro hn
    unfold getMultivar
    simp only [hk, hi, Res.bind_ok, multivarLoop_none, ConfigFile.values_nil.1 hn, if_true]
  · intro hn
    refine ⟨l.filter fun e => e.1 = key, ?_, rfl, fun e he => by simpa using (List.mem_filter.1 he).2⟩
    unfold getMultivar
    simp only [hk, hi, Res.bind_ok, multivarLoop_none]
    rw [if_neg (fun h => hn (ConfigFile.values_nil.2 h))]
  · intro p hn r h
    unfold getMultivar at h
    have hl : ∀ e ∈ l, e.1 = key → e.2 ≠ none := by
      intro e he hke hno
      apply hn
      unfold values
      rw [List.mem_map]
      exact ⟨e, List.mem_filter.2 ⟨he, by simpa using hke⟩, hno⟩
    simp only [hk, hi, Res.bind_ok, multivarLoop_some key p l hl] at h
    split at h
    · cases h
    · rw [← Res.ok.inj h]
      unfold values
      rw [List.filter_map, List.filter_filter]
      congr 1
      apply List.filter_congr
      intro e _
      simp [Bool.and_comm]

/-! ### adding backends -/

/-- **C36, adding**: without `force` a second backend for a level is refused; otherwise the backend is found at its level, in place of the one that
was there, and the other levels are as before. -/
theorem C36_add {c : Config} (h : Reach c) (inst : Nat) (level : Int) :
    ((∃ e ∈ c.readers.items, e.level = level) → addInstance c inst level false = .err EEXISTS) ∧
    (∀ force, (force = true ∨ ∀ e ∈ c.readers.items, e.level ≠ level) → ∃ c', addInstance c inst level force = .ok c' ∧
      ∀ e, e ∈ c'.readers.items ↔ e = ⟨inst, level, level⟩ ∨ (e ∈ c.readers.items ∧ e.level ≠ level)) := by
  have hg := reach_good h
  refine ⟨addInstance_dup hg inst level, ?_⟩
  intro force hf
  cases force with
  | true =>
    obtain ⟨l, m, _, _, h1, _, h3, _⟩ := good_insert (good_remove hg level) inst level (tryRemove_none hg level)
    refine ⟨_, (addInstance_force c inst level).trans h3, ?_⟩
    intro e
    have hm : e ∈ l ++ m ↔ e ∈ c.readers.items ∧ e.level ≠ level := by
      rw [← h1, tryRemove_eq hg]; simp only [List.mem_filter, decide_eq_true_eq]
    rw [← hm]; simp only [List.mem_append, List.mem_cons]
    constructor
    · rintro (h | h | h)
      · exact .inr (.inl h)
      · exact .inl h
      · exact .inr (.inr h)
    · rintro (h | h | h)
      · exact .inr (.inl h)
      · exact .inl h
      · exact .inr (.inr h)
  | false =>
    have hn : ∀ e ∈ c.readers.items, e.level ≠ level := by
      rcases hf with hf | hf
      · cases hf
      · exact hf
    obtain ⟨l, m, _, _, h1, _, h3, _⟩ := good_insert hg inst level hn
    refine ⟨_, h3, ?_⟩
    intro e
    have hm : e ∈ l ++ m ↔ e ∈ c.readers.items ∧ e.level ≠ level := by
      rw [← h1]; exact ⟨fun he => ⟨he, hn e he⟩, fun he => he.1⟩
    rw [← hm]; simp only [List.mem_append, List.mem_cons]
    constructor
    · rintro (h | h | h)
      · exact .inr (.inl h)
      · exact .inl h
      · exact .inr (.inr h)
    · rintro (h | h | h)
      · exact .inr (.inl h)
      · exact .inl h
      · exact .inr (.inr h)

/-- **C36, one level**: `git_config_open_level` gives a configuration that has the backend of that level only (so what is written through it is seen by
the configuration it was opened from, as they share the backend), and fails if there is none. -/
theorem C36_open_level {c : Config} (h : Reach c) (level : Int) (hl : level ≠ HIGHEST) :
    (∀ e ∈ c.readers.items, e.level = level → openLevel c level = .ok ⟨⟨[⟨e.inst, level, level⟩], true⟩, ⟨[⟨e.inst, level, level⟩], true⟩⟩) ∧
    ((∀ e ∈ c.readers.items, e.level ≠ level) → openLevel c level = .err ENOTFOUND) := by
  unfold openLevel findByLevel
  rw [if_neg hl]
  constructor
  · intro e he hle
    cases hf : c.readers.items.find? (fun e => decide (e.level = level)) with
    | none => exact absurd hle (by simpa using List.find?_eq_none.1 hf e he)
    | some e' =>
      have h1 := List.mem_of_find?_eq_some hf
      have h2 := List.find?_some hf
      have : e' = e := (reach_good h).desc.eq_of_level h1 he (by simp only [decide_eq_true_eq] at h2; omega)
      rw [this]; simp only [add_new]
  · intro hn
    have : c.readers.items.find? (fun e => decide (e.level = level)) = none := by
      rw [List.find?_eq_none]; intro e he; simpa using hn e he
    rw [this]

/-- **C36, the highest level**: `git_config_open_level` with GIT_CONFIG_HIGHEST_LEVEL gives the backend of the highest level, and fails if there is none. -/
theorem C36_open_highest {c : Config} (h : Reach c) :
    (∀ e ∈ c.readers.items, (∀ x ∈ c.readers.items, x.level ≤ e.level) →
      openLevel c HIGHEST = .ok ⟨⟨[⟨e.inst, -1, -1⟩], true⟩, ⟨[⟨e.inst, -1, -1⟩], true⟩⟩) ∧
    (c.readers.items = [] → openLevel c HIGHEST = .err ENOTFOUND) := by
  unfold openLevel findByLevel
  rw [if_pos rfl]
  have hd := (reach_good h).desc
  constructor
  · intro e he hm
    cases hl : c.readers.items with
    | nil => rw [hl] at he; cases he
    | cons a l =>
      rw [hl] at hd he hm
      have : e = a := by
        rcases List.mem_cons.1 he with rfl | he
        · rfl
        · have h1 := (List.pairwise_cons.1 hd).1 e he
          have h2 := hm a (by simp)
          omega
      rw [this]
      simp only [List.head?_cons]
      exact add_new _ _
  · intro hl
    rw [hl]; rfl

/-- **C36, the global level**: `git_config_open_global` gives the XDG level if there is one, otherwise the global level. -/
theorem C36_open_global {c : Config} (h : Reach c) :
    ((∃ e ∈ c.readers.items, e.level = XDG) → openGlobal c = openLevel c XDG) ∧
    ((∀ e ∈ c.readers.items, e.level ≠ XDG) → openGlobal c = openLevel c GLOBAL) := by
  obtain ⟨h1, h2⟩ := C36_open_level h XDG (by decide)
  constructor
  · rintro ⟨e, he, hl⟩
    unfold openGlobal; rw [h1 e he hl]
  · intro hn
    unfold openGlobal; rw [h2 hn]; simp only [ne_eq, not_true_eq_false, if_false]

/-! ### writing -/

/-- **C36, writing**: setting a variable changes the backend that is written only; there the variable has the value that was set and nothing else
changes; and a lookup gives that value, if no higher level has the variable. -/
theorem C36_set {st : Store} {c : Config} {name key v f : Bytes} {ents : List Entry} {i : Nat} (h : Reach c) (hw : getWriter st c = some i)
    (hs : (st i).src = .file f) (ht : Tidy f) (hr : readEntries f = .ok ents) (hk : normalizeName name = .ok key) (hn : Name name) (hv : Value v)
    (hu : (values key ents).length ≤ 1) :
    ∃ st' ents', setString st c name v = .ok st' ∧ (∀ j, j ≠ i → st' j = st j) ∧ readAll (st' i) = .ok ents' ∧ values key ents' = [some v] ∧
      others key ents' = others key ents ∧
      ∀ e ∈ c.readers.items, e.inst = i → (∀ x ∈ c.readers.items, e.level < x.level → x.inst ≠ i ∧ Lacks st x key) → get st' c name = .ok (some v) := by
  obtain ⟨f', ents', h1, h2, h3, h4, h5, _⟩ := ConfigFile.C34_set ht hr hk hn hv hu
  have hra : readAll (upd st i { (st i) with src := .file f' } i) = .ok ents' := by unfold upd readAll; simp only [if_true, h3]
  refine ⟨upd st i { (st i) with src := .file f' }, ents', ?_, fun j hj => by unfold upd; rw [if_neg hj], hra, h5, h4, ?_⟩
  · unfold setString backendSet; simp only [hw, hs, h1]
  · intro e he hi hh
    refine C36_get h hk he ⟨ents', by rw [hi]; exact hra, by rw [h5]; rfl⟩ ?_
    intro x hx hlt
    obtain ⟨hne, l, hl, hl'⟩ := hh x hx hlt
    exact ⟨l, by unfold upd; rw [if_neg hne]; exact hl, hl'⟩

/-- **C36, deleting**: deleting a variable changes the backend that is written only, where it is gone and nothing else changes; a lookup then gives
the value of the next lower level that has it, or none. -/
theorem C36_delete {st : Store} {c : Config} {name key f : Bytes} {ents : List Entry} {i : Nat} (h : Reach c) (hw : getWriter st c = some i)
    (hs : (st i).src = .file f) (ht : Tidy f) (hr : readEntries f = .ok ents) (hk : normalizeName name = .ok key) (hu : (values key ents).length = 1) :
    ∃ st' ents', deleteEntry st c name = .ok st' ∧ (∀ j, j ≠ i → st' j = st j) ∧ readAll (st' i) = .ok ents' ∧ values key ents' = [] ∧
      others key ents' = others key ents ∧
      (∀ e ∈ c.readers.items, ∀ v, e.inst ≠ i → Defines st e key v → (∀ x ∈ c.readers.items, e.level < x.level → x.inst = i ∨ Lacks st x key) →
        get st' c name = .ok v) ∧
      ((∀ x ∈ c.readers.items, x.inst = i ∨ Lacks st x key) → get st' c name = .err ENOTFOUND) := by
  obtain ⟨f', ents', h1, h2, h3, h4, h5, _⟩ := ConfigFile.C34_delete ht hr hk hu
  have hra : readAll (upd st i { (st i) with src := .file f' } i) = .ok ents' := by unfold upd readAll; simp only [if_true, h3]
  have hla : ∀ x : BEntry, x.inst = i ∨ Lacks st x key → Lacks (upd st i { (st i) with src := .file f' }) x key := by
    intro x hx
    by_cases hxi : x.inst = i
    · exact ⟨ents', by rw [hxi]; exact hra, h5⟩
    · rcases hx with hx | ⟨l, hl, hl'⟩
      · exact absurd hx hxi
      · exact ⟨l, by unfold upd; rw [if_neg hxi]; exact hl, hl'⟩
  refine ⟨upd st i { (st i) with src := .file f' }, ents', ?_, fun j hj => by unfold upd; rw [if_neg hj], hra, h5, h4, ?_, ?_⟩
  · unfold deleteEntry backendDel; simp only [hw, hs, h1]
  · intro e he v hi ⟨l, hl, hl'⟩ hh
    exact C36_get h hk he ⟨l, by unfold upd; rw [if_neg hi]; exact hl, hl'⟩ (fun x hx hlt => hla x (hh x hx hlt))
  · intro hh
    exact C36_get_none hk (fun x hx => hla x (hh x hx))

/-! ### which backend is written -/

theorem bsearchLoop_congr {k1 k2 : BEntry → Int} {a : List BEntry} (h : ∀ x ∈ a, k1 x = k2 x) : ∀ (fuel base lim : Nat) (c : Int),
    Sort.bsearchLoop k1 a fuel base lim c = Sort.bsearchLoop k2 a fuel base lim c
  | 0, _, _, _ => rfl
  | fuel + 1, base, lim, c => by
    unfold Sort.bsearchLoop
    unfold Sort.rd
    cases hx : a[base + lim / 2]? with
    | none => rfl
    | some x =>
      simp only [h x (List.mem_of_getElem? hx), bsearchLoop_congr h fuel]

theorem bsearch_congr {k1 k2 : BEntry → Int} {a : List BEntry} (h : ∀ x ∈ a, k1 x = k2 x) : Sort.bsearch k1 a = Sort.bsearch k2 a := by
  unfold Sort.bsearch; rw [bsearchLoop_congr h]

/-- the configurations without a write order: both vectors are the same and the write order is the level -/
structure Fresh (c : Config) : Prop where
  good : Good c
  eq : c.writers.items = c.readers.items
  order : ∀ e ∈ c.readers.items, e.writeOrder = e.level

theorem fresh_add {c c' : Config} (h : Fresh c) {inst : Nat} {level : Int} (ha : addInstance c inst level false = .ok c') : Fresh c' := by
  refine ⟨good_add h.good ha, ?_, ?_⟩ <;> by_cases hd : ∃ y ∈ c.readers.items, y.level = level
  · rw [addInstance_dup h.good inst level hd] at ha; cases ha
  · unfold addInstance insertSorted vecSort at ha
    have hb : Sort.bsearch (writerCmp ⟨inst, level, level⟩) c.readers.items = Sort.bsearch (readerCmp ⟨inst, level, level⟩) c.readers.items := by
      apply bsearch_congr
      intro x hx
      simp only [writerCmp, readerCmp, h.order x hx]
    simp only [Bool.false_eq_true, if_false, h.good.rs, h.good.ws, if_true, Res.bind_ok, h.eq, hb] at ha
    obtain ⟨found, pos, h1, _⟩ := bsearch_total (readerCmp ⟨inst, level, level⟩) c.readers.items
    rw [h1] at ha
    simp only [Res.bind_ok, Bool.and_true, Bool.and_false, Bool.false_eq_true, if_false] at ha
    cases found with
    | true => cases ha
    | false => rw [← Res.ok.inj ha]
  · rw [addInstance_dup h.good inst level hd] at ha; cases ha
  · obtain ⟨l, m, _, _, h1, _, h3, _⟩ := good_insert h.good inst level (fun y hy hl => hd ⟨y, hy, hl⟩)
    rw [h3] at ha
    rw [← Res.ok.inj ha]
    intro e he
    simp only [List.mem_append, List.mem_cons] at he
    rcases he with he | rfl | he
    · exact h.order e (by rw [h1]; simp [he])
    · rfl
    · exact h.order e (by rw [h1]; simp [he])

theorem fresh_remove {c : Config} (h : Fresh c) (level : Int) : Fresh (tryRemove c level) := by
  refine ⟨good_remove h.good level, ?_, ?_⟩ <;> rw [tryRemove_eq h.good]
  · simp only [h.eq]
  · intro e he; exact h.order e (List.mem_filter.1 he).1

theorem plain_fresh {c : Config} (h : Plain c) : Fresh c := by
  have hadd : ∀ {c c' : Config} {inst : Nat} {level : Int} {force : Bool}, Fresh c → addInstance c inst level force = .ok c' → Fresh c' := by
    intro c c' inst level force hc ha
    cases force with
    | false => exact fresh_add hc ha
    | true => exact fresh_add (fresh_remove hc level) (addInstance_force c inst level ▸ ha)
  have hnew : Fresh new := ⟨good_new, rfl, by intro e he; cases he⟩
  induction h with
  | new => exact hnew
  | add _ ha ih => exact hadd ih ha
  | level _ ha _ =>
    unfold openLevel at ha
    split at ha
    · exact hadd hnew ha
    · cases ha
    · cases ha

theorem find_first {l : List BEntry} (hd : Desc l) {p : BEntry → Bool} {e : BEntry} (he : e ∈ l) (hp : p e = true) (hh : ∀ x ∈ l, e.level < x.level → p x = false) :
    l.find? p = some e := by
  obtain ⟨a, b, rfl, h2, _⟩ := split_at hd he
  rw [List.find?_append, List.find?_eq_none.2 (fun x hx => by simp [hh x (by simp [hx]) (h2 x hx)]), List.find?_cons_of_pos hp]
  rfl

/-- **C36, what is written by default**: if no write order was set, it is the backend of the highest level that is not read-only. -/
theorem C36_writer {st : Store} {c : Config} (h : Plain c) (hl : ∀ e ∈ c.readers.items, 0 ≤ e.level) :
    (∀ e ∈ c.readers.items, (st e.inst).readonly = false → (∀ x ∈ c.readers.items, e.level < x.level → (st x.inst).readonly = true) →
      getWriter st c = some e.inst) ∧
    ((∀ x ∈ c.readers.items, (st x.inst).readonly = true) → getWriter st c = none) := by
  have hf := plain_fresh h
  unfold getWriter
  rw [hf.eq]
  constructor
  · intro e he hr hh
    rw [find_first hf.good.desc he (by simp only [hr, hf.order e he, hl e he, decide_true, Bool.not_false, Bool.and_self])
      (fun x hx hlt => by simp only [hh x hx hlt, Bool.not_true, Bool.false_and])]
    rfl
  · intro hh
    rw [List.find?_eq_none.2]
    · rfl
    · intro x hx; simp [hh x hx]

theorem orderOf_nonneg (levels : List Int) (level : Int) : (0 ≤ orderOf levels level) ↔ level ∈ levels := by
  unfold orderOf
  cases hf : levels.findIdx? (fun x => decide (x = level)) with
  | none =>
    rw [List.findIdx?_eq_none_iff] at hf
    refine ⟨fun h => by simp at h, fun h => ?_⟩
    have := hf level h
    simp at this
  | some j =>
    obtain ⟨hj, hj2, _⟩ := List.findIdx?_eq_some_iff_getElem.1 hf
    refine ⟨fun _ => ?_, fun _ => Int.natCast_nonneg j⟩
    have : levels[j] = level := by simpa using hj2
    rw [← this]; exact List.getElem_mem hj

/-- **C36, write orders**: after `git_config_set_writeorder` only backends of the given levels are written: the one of the highest such level that is not
read-only. -/
theorem C36_writeorder {st : Store} {c : Config} (h : Plain c) (levels : List Int) :
    ∃ c', setWriteorder c levels = .ok c' ∧
    (∀ e ∈ c.readers.items, e.level ∈ levels → (st e.inst).readonly = false →
      (∀ x ∈ c.readers.items, e.level < x.level → x.level ∈ levels → (st x.inst).readonly = true) → getWriter st c' = some e.inst) ∧
    ((∀ x ∈ c.readers.items, x.level ∈ levels → (st x.inst).readonly = true) → getWriter st c' = none) := by
  have hf := plain_fresh h
  refine ⟨_, setWriteorder_eq hf.good levels, ?_, ?_⟩
  · intro e he hm hr hh
    unfold getWriter
    simp only [hf.eq, List.find?_map, Option.map_map]
    rw [find_first hf.good.desc he (by simp only [Function.comp_apply, hr, (orderOf_nonneg levels e.level).2 hm, decide_true, Bool.not_false, Bool.and_self])]
    · rfl
    · intro x hx hlt
      by_cases hxm : x.level ∈ levels
      · simp [hh x hx hlt hxm]
      · simp [mt (orderOf_nonneg levels x.level).1 hxm]
  · intro hh
    unfold getWriter
    simp only [hf.eq, List.find?_map, Option.map_map]
    rw [List.find?_eq_none.2]
    · rfl
    · intro x hx
      by_cases hxm : x.level ∈ levels
      · simp [hh x hx hxm]
      · simp [mt (orderOf_nonneg levels x.level).1 hxm]

/-- **C36, the order of the write order is ignored**: documented is an "ordering of levels for writing", but as the vector of writers is still marked as
sorted it is not sorted again: two write orders with the same levels in different orders have the same effect. -/
theorem C36_writeorder_ignored {c c1 c2 : Config} (h : Plain c) {l1 l2 : List Int} (hm : ∀ x, x ∈ l1 ↔ x ∈ l2) (h1 : setWriteorder c l1 = .ok c1)
    (h2 : setWriteorder c l2 = .ok c2) (st : Store) : getWriter st c1 = getWriter st c2 := by
  have hf := plain_fresh h
  rw [setWriteorder_eq hf.good] at h1 h2
  rw [← Res.ok.inj h1, ← Res.ok.inj h2]
  unfold getWriter
  simp only [List.find?_map, Option.map_map]
  have : ((fun e : BEntry => !(st e.inst).readonly && decide (0 ≤ e.writeOrder)) ∘ fun e : BEntry => (⟨e.inst, e.level, orderOf l1 e.level⟩ : BEntry)) =
      ((fun e : BEntry => !(st e.inst).readonly && decide (0 ≤ e.writeOrder)) ∘ fun e : BEntry => (⟨e.inst, e.level, orderOf l2 e.level⟩ : BEntry)) := by
    funext e
    simp only [Function.comp_apply]
    congr 1
    rw [decide_eq_decide, orderOf_nonneg, orderOf_nonneg, hm]
  rw [this]
  rfl

/-- **C36, the highest level cannot be written**: `git_config_open_level` with GIT_CONFIG_HIGHEST_LEVEL gives a configuration that refuses to be written,
even if its backend is not read-only: the level -1 is taken for its write order. -/
theorem C36_highest_readonly {c c' : Config} (h : openLevel c HIGHEST = .ok c') (st : Store) (name v : Bytes) :
    setString st c' name v = .err EREADONLY ∧ deleteEntry st c' name = .err EREADONLY := by
  unfold openLevel at h
  split at h
  · rw [add_new] at h
    have hw : getWriter st c' = none := by
      rw [← Res.ok.inj h]
      unfold getWriter HIGHEST
      simp
    unfold setString deleteEntry
    rw [hw]
    exact ⟨rfl, rfl⟩
  · cases h
  · cases h

/-! ### snapshots -/

/-- the entries a snapshot makes -/
def copies (fresh : Nat) : List BEntry → List BEntry
  | [] => []
  | e :: es => ⟨fresh, e.level, e.level⟩ :: copies (fresh + 1) es

theorem desc_snoc {l m : List BEntry} {x : BEntry} {p : List BEntry} (hp : p = l ++ m) (hd : Desc (l ++ x :: m)) (hx : ∀ y ∈ p, x.level < y.level) : m = [] := by
  cases m with
  | nil => rfl
  | cons y m =>
    have h1 := (List.pairwise_cons.1 (List.pairwise_append.1 hd).2.1).1 y (by simp)
    have h2 := hx y (by rw [hp]; simp)
    omega

theorem snapshotLoop_ok : ∀ (es : List BEntry) (fresh : Nat) (st : Store) (c : Config), Good c → Desc es →
    (∀ e ∈ es, e.inst < fresh ∧ ∃ l, readAll (st e.inst) = .ok l) → (∀ y ∈ c.readers.items, ∀ e ∈ es, e.level < y.level) →
    ∃ st' c', snapshotLoop fresh st c es = .ok (st', c') ∧ Good c' ∧ c'.readers.items = c.readers.items ++ copies fresh es ∧
      (∀ j, j < fresh → st' j = st j) ∧
      List.Forall₂ (fun e e' : BEntry => e'.level = e.level ∧ fresh ≤ e'.inst ∧ (st' e'.inst).readonly = true ∧
        ∃ l, readAll (st e.inst) = .ok l ∧ (st' e'.inst).src = .memory l) es (copies fresh es)
  | [], fresh, st, c, hg, _, _, _ => ⟨st, c, rfl, hg, by simp [copies], fun _ _ => rfl, .nil⟩
  | e :: es, fresh, st, c, hg, hd, he, hc => by
    obtain ⟨hlt, l, hl⟩ := he e (by simp)
    have hd' := List.pairwise_cons.1 hd
    obtain ⟨rl, rm, wl, wm, h1, _, h3, h4⟩ := good_insert hg fresh e.level (fun y hy => by have := hc y hy e (by simp); omega)
    have hrm : rm = [] := desc_snoc h1 h4.desc (fun y hy => hc y hy e (by simp))
    subst hrm
    obtain ⟨st', c', g1, g2, g3, g4, g5⟩ := snapshotLoop_ok es (fresh + 1) (upd st fresh ⟨.memory l, true⟩) _ h4 hd'.2
      (by
        intro x hx
        obtain ⟨h5, l', h6⟩ := he x (by simp [hx])
        exact ⟨by omega, l', by unfold upd; rw [if_neg (by omega)]; exact h6⟩)
      (by
        intro y hy x hx
        have hxe := hd'.1 x hx
        simp only [List.mem_append, List.mem_cons] at hy
        rcases hy with hy | rfl | hy
        · have := hc y (by rw [h1]; simp [hy]) e (by simp); omega
        · exact hxe
        · cases hy)
    refine ⟨st', c', ?_, g2, ?_, ?_, ?_⟩
    · rw [snapshotLoop]
      simp only [hl]
      unfold addBackend
      have : readAll (upd st fresh ⟨.memory l, true⟩ fresh) = .ok l := by unfold upd readAll; simp only [if_true]
      simp only [this, h3, Res.bind_ok]
      exact g1
    · rw [g3, h1]; simp [copies]
    · intro j hj; rw [g4 j (by omega)]; unfold upd; rw [if_neg (by omega)]
    · refine .cons ⟨rfl, Nat.le_refl _, ?_, l, hl, ?_⟩ ?_
      · rw [g4 fresh (by omega)]; unfold upd; simp only [if_true]
      · rw [g4 fresh (by omega)]; unfold upd; simp only [if_true]
      · have hmap : ∀ {a b : List BEntry} {P Q : BEntry → BEntry → Prop}, (∀ x ∈ a, ∀ y, P x y → Q x y) → List.Forall₂ P a b → List.Forall₂ Q a b := by
          intro a b P Q hPQ hf
          induction hf with
          | nil => exact .nil
          | cons h _ ih => exact .cons (hPQ _ (by simp) _ h) (ih (fun x hx y => hPQ x (by simp [hx]) y))
        refine hmap ?_ g5
        rintro x hx y ⟨k1, k2, k3, l', k4, k5⟩
        refine ⟨k1, by omega, k3, l', ?_, k5⟩
        unfold upd at k4
        rw [if_neg (by have := (he x (by simp [hx])).1; omega)] at k4
        exact k4

theorem forall₂_map_right {α β γ : Type} {P : α → γ → Prop} {f : β → γ} : ∀ {a : List α} {b : List β}, List.Forall₂ (fun x y => P x (f y)) a b → List.Forall₂ P a (b.map f)
  | _, _, .nil => .nil
  | _, _, .cons h t => .cons h (forall₂_map_right t)

theorem getLoop_same {st st2 : Store} {key : Bytes} : ∀ {a b : List BEntry},
    List.Forall₂ (fun e e' : BEntry => readAll (st2 e'.inst) = readAll (st e.inst)) a b → getLoop st2 key b = getLoop st key a
  | _, _, .nil => rfl
  | _, _, .cons h t => by
    rw [getLoop, getLoop]
    unfold backendGet
    rw [h, getLoop_same t]

theorem forall₂_append {α β : Type} {P : α → β → Prop} : ∀ {a c : List α} {b d : List β}, List.Forall₂ P a b → List.Forall₂ P c d → List.Forall₂ P (a ++ c) (b ++ d)
  | _, _, _, _, .nil, h => h
  | _, _, _, _, .cons h t, h' => .cons h (forall₂_append t h')

theorem forall₂_reverse {α β : Type} {P : α → β → Prop} : ∀ {a : List α} {b : List β}, List.Forall₂ P a b → List.Forall₂ P a.reverse b.reverse
  | _, _, .nil => .nil
  | _, _, .cons h t => by rw [List.reverse_cons, List.reverse_cons]; exact forall₂_append (forall₂_reverse t) (.cons h .nil)

theorem iterLoop_same {st st2 : Store} : ∀ {a b : List BEntry},
    List.Forall₂ (fun e e' : BEntry => readAll (st2 e'.inst) = readAll (st e.inst)) a b → iterLoop st2 b = iterLoop st a
  | _, _, .nil => rfl
  | _, _, .cons h t => by rw [iterLoop, iterLoop, h, iterLoop_same t]

/-- **C36, snapshots**: a snapshot of a readable configuration succeeds, changes no existing backend, cannot be written, and whatever happens later to
the existing backends, it gives the values and the entries the configuration had when the snapshot was made. -/
theorem C36_snapshot {st : Store} {c : Config} (h : Reach c) (hr : Readable st c) {fresh : Nat} (hf : ∀ e ∈ c.readers.items, e.inst < fresh) :
    ∃ st' c', snapshot fresh st c = .ok (st', c') ∧ (∀ j, j < fresh → st' j = st j) ∧
      ∀ st2 : Store, (∀ j, fresh ≤ j → st2 j = st' j) →
        (∀ name, get st2 c' name = get st c name) ∧ iterate st2 c' = iterate st c ∧
        ∀ name v, setString st2 c' name v = .err EREADONLY ∧ deleteEntry st2 c' name = .err EREADONLY := by
  obtain ⟨st', c1, h1, h2, h3, h4, h5⟩ := snapshotLoop_ok c.readers.items fresh st new good_new (reach_good h).desc
    (fun e he => ⟨hf e he, hr e he⟩) (by intro y hy; cases hy)
  refine ⟨st', ⟨⟨c1.readers.items.map fun e => { e with writeOrder := orderOf [] e.level }, true⟩,
        ⟨c1.writers.items.map fun e => { e with writeOrder := orderOf [] e.level }, true⟩⟩, ?_, h4, ?_⟩
  · unfold snapshot
    rw [h1]
    simp only [Res.bind_ok, setWriteorder_eq h2]
  intro st2 hst
  have hsame : List.Forall₂ (fun e e' : BEntry => readAll (st2 e'.inst) = readAll (st e.inst)) c.readers.items
      (c1.readers.items.map fun e => { e with writeOrder := orderOf [] e.level }) := by
    rw [h3]
    apply forall₂_map_right
    simp only [new, List.nil_append]
    have hmap : ∀ {a b : List BEntry} {P Q : BEntry → BEntry → Prop}, (∀ x y, P x y → Q x y) → List.Forall₂ P a b → List.Forall₂ Q a b := by
      intro a b P Q hPQ hf
      induction hf with
      | nil => exact .nil
      | cons h _ ih => exact .cons (hPQ _ _ h) ih
    refine hmap ?_ h5
    rintro x y ⟨_, k2, _, l, k4, k5⟩
    rw [hst _ k2, k4]
    unfold readAll
    rw [k5]
  refine ⟨?_, iterLoop_same (forall₂_reverse hsame), ?_⟩
  · intro name
    unfold get
    cases normalizeName name with
    | ok key => exact getLoop_same hsame
    | err e => rfl
    | ub => rfl
  · intro name v
    have hw : getWriter st2 ⟨⟨c1.readers.items.map fun e => { e with writeOrder := orderOf [] e.level }, true⟩,
        ⟨c1.writers.items.map fun e => { e with writeOrder := orderOf [] e.level }, true⟩⟩ = none := by
      unfold getWriter
      rw [List.find?_eq_none.2]
      · rfl
      · intro x hx
        obtain ⟨y, _, rfl⟩ := List.mem_map.1 hx
        simp [orderOf]
    unfold setString deleteEntry
    rw [hw]
    exact ⟨rfl, rfl⟩

/-! ### concrete cases -/

/-- a global and a local file -/
def exStore : Store := fun i => if i = 0 then ⟨.file b!"[a]\nb = g\nc = h\n", false⟩ else if i = 1 then ⟨.file b!"[a]\nb = l\n", false⟩ else ⟨.memory [], true⟩

/-- the global file at level 4 and the local file at level 5 -/
def exConfig : Config := ⟨⟨[⟨1, 5, 5⟩, ⟨0, 4, 4⟩], true⟩, ⟨[⟨1, 5, 5⟩, ⟨0, 4, 4⟩], true⟩⟩

theorem exPlain : Plain exConfig := .add (c := ⟨⟨[⟨0, 4, 4⟩], true⟩, ⟨[⟨0, 4, 4⟩], true⟩⟩) (inst := 1) (level := 5) (force := false)
  (.add (inst := 0) (level := 4) (force := false) .new rfl) (by decide +kernel)

theorem exReach : Reach exConfig := .add (c := ⟨⟨[⟨0, 4, 4⟩], true⟩, ⟨[⟨0, 4, 4⟩], true⟩⟩) (inst := 1) (level := 5) (force := false)
  (.add (inst := 0) (level := 4) (force := false) .new rfl) (by decide +kernel)

theorem exReadable : Readable exStore exConfig := by
  intro e he
  simp only [exConfig, List.mem_cons, List.not_mem_nil, or_false] at he
  rcases he with rfl | rfl
  · exact ⟨[(b!"a.b", some b!"l")], by decide +kernel⟩
  · exact ⟨[(b!"a.b", some b!"g"), (b!"a.c", some b!"h")], by decide +kernel⟩

example : get exStore exConfig b!"A.B" = .ok (some b!"l") := by decide +kernel
example : get exStore exConfig b!"a.c" = .ok (some b!"h") := by decide +kernel
example : iterate exStore exConfig = .ok [(b!"a.b", some b!"g"), (b!"a.c", some b!"h"), (b!"a.b", some b!"l")] := by decide +kernel
example : getWriter exStore exConfig = some 1 := by decide +kernel
/-- deleting the local value reveals the global one -/
example : ∃ st', deleteEntry exStore exConfig b!"a.b" = .ok st' ∧ get st' exConfig b!"a.b" = .ok (some b!"g") := by
  refine ⟨upd exStore 1 ⟨.file b!"[a]\n", false⟩, ?_, by decide +kernel⟩
  unfold deleteEntry
  have hw : getWriter exStore exConfig = some 1 := by decide +kernel
  have hd : ConfigFile.delete b!"[a]\nb = l\n" b!"a.b" = .ok b!"[a]\n" := by decide +kernel
  have hs : exStore 1 = ⟨.file b!"[a]\nb = l\n", false⟩ := rfl
  rw [hw]
  simp only [hs, backendDel, hd]
/-- the global level first makes no difference -/
example : ∃ c', setWriteorder exConfig [4, 5] = .ok c' ∧ getWriter exStore c' = some 1 := by
  exact ⟨_, rfl, by decide +kernel⟩
example : ∃ c', setWriteorder exConfig [4] = .ok c' ∧ getWriter exStore c' = some 0 := by
  exact ⟨_, rfl, by decide +kernel⟩
example : ∃ c', openLevel exConfig HIGHEST = .ok c' := ⟨_, rfl⟩
example : ∃ st' c', snapshot 2 exStore exConfig = .ok (st', c') :=
  have ⟨st', c', h, _⟩ := C36_snapshot exReach exReadable (fresh := 2) (by decide +kernel)
  ⟨st', c', h⟩

/-- **C36, a defect**: reading the values of a variable by an expression dereferences NULL if the variable occurs without a value. -/
theorem C36_multivar_null : getMultivar (fun _ => ⟨.file b!"[a]\nb\n", false⟩) ⟨⟨[⟨0, 5, 5⟩], true⟩, ⟨[⟨0, 5, 5⟩], true⟩⟩ b!"a.b" (some fun _ => true) = .ub := by
  decide +kernel

end Verif.ConfigLevels
