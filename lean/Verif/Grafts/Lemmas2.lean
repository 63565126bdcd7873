import Verif.Grafts.Lemmas
/-! # Looking at the file of grafts again and again -/
namespace Verif.Grafts
open HashMap.Spec (lookup step Op)
open Spec (IsId Line File IsText parentsOf Graft lastRead Settled Tells UpToDate Says)

variable {sha : Bytes → Bytes} {size : Nat}

/-- an id is bound once -/
def Keys (m : Map) : Prop := (m.map (·.1)).Nodup

theorem keys_add {m : Map} (h : Keys m) (k : Bytes) (v : List Bytes) : Keys (add m k v) := by
  unfold add step Keys
  rw [List.map_cons, List.nodup_cons]
  constructor
  · intro hm
    obtain ⟨p, hp, e⟩ := List.mem_map.mp hm
    have := (List.mem_filter.mp hp).2
    simp only [e] at this
    simp at this
  · exact h.sublist ((List.filter_sublist.trans List.filter_sublist).map _)

theorem parseLoop_keys : ∀ (f : Nat) (c : Mailmap.Ctx) (m m' : Map) (e : Int), Keys m → parseLoop size f c m = .ok (m', e) → Keys m' := by
  intro f
  induction f with
  | zero => intro c m m' e _ h; cases h
  | succ f ih =>
    intro c m m' e hk h
    unfold parseLoop at h
    split at h
    · cases h; exact hk
    · split at h
      · cases h
      · cases h; exact hk
      · split at h
        · cases h
        · cases h; exact hk
        · exact ih _ _ _ _ (keys_add hk _ _) h

theorem mem_keys (m : Map) (id : Bytes) : id ∈ m.map (·.1) ↔ (lookup m id).isSome := by
  unfold lookup
  simp only [List.mem_map, Option.isSome_map, List.find?_isSome]
  constructor
  · rintro ⟨p, h1, h2⟩; exact ⟨p, h1, by simp [h2]⟩
  · rintro ⟨p, h1, h2⟩; exact ⟨p, h1, by simpa using h2⟩

theorem parse_total (h0 : 0 < size) (text : Bytes) : ∃ m c, parse size text = .ok (m, c) := by
  obtain ⟨ls, h⟩ := isText_exists text
  obtain ⟨gs, c, m, h1, _⟩ := parse_spec size h0 text ls h
  exact ⟨m, c, h1⟩

theorem refresh_total (h0 : 0 < size) (g : Grafts) (hk : Keys g.map) (f : Option Bytes) : ∃ g' c, refresh sha size g f = .ok (g', c) ∧ Keys g'.map ∧
    (g'.sum = match f with | none => g.sum | some t => sha t) := by
  unfold refresh
  cases f with
  | none => exact ⟨_, _, rfl, by simp [Keys], rfl⟩
  | some buf =>
    dsimp only
    by_cases h : g.sum = sha buf
    · rw [if_pos h]; exact ⟨_, _, rfl, hk, h⟩
    · rw [if_neg h]
      obtain ⟨m, c, hp⟩ := parse_total h0 buf
      rw [hp]
      exact ⟨_, _, rfl, parseLoop_keys _ _ _ _ _ (by simp [Keys]) hp, rfl⟩

theorem lookAll_append (g : Grafts) (c : Int) (a b : List (Option Bytes)) :
    lookAll sha size g c (a ++ b) = lookAll sha size g c a >>= fun r => lookAll sha size r.1 r.2 b := by
  induction a generalizing g c with
  | nil => rfl
  | cons f a ih =>
    rw [List.cons_append, lookAll.eq_2, lookAll.eq_2]
    cases refresh sha size g f with
    | ok r => rw [Res.bind_ok, Res.bind_ok, ih]
    | err e => rfl
    | ub => rfl

theorem lastRead_snoc (a : List (Option Bytes)) (f : Option Bytes) : lastRead (a ++ [f]) = match f with | none => lastRead a | some t => some t := by
  unfold lastRead
  rw [List.filterMap_append]
  cases f with
  | none => simp
  | some t => simp

theorem lastRead_mem {a : List (Option Bytes)} {t : Bytes} (h : lastRead a = some t) : some t ∈ a := by
  have := List.mem_of_getLast? h
  simpa using this

theorem lookAll_total (h0 : 0 < size) (files : List (Option Bytes)) : ∃ g c, lookAll sha size new 0 files = .ok (g, c) ∧ Keys g.map ∧
    (g.sum = match lastRead files with | none => List.replicate 32 0 | some t => sha t) := by
  refine list_snoc_induction (p := fun files => ∃ g c, lookAll sha size new 0 files = .ok (g, c) ∧ Keys g.map ∧
    (g.sum = match lastRead files with | none => List.replicate 32 0 | some t => sha t)) ⟨new, 0, rfl, by simp [Keys, new], rfl⟩ ?_ files
  rintro a f ⟨g, c, h1, h2, h3⟩
  obtain ⟨g', c', r1, r2, r3⟩ := refresh_total (sha := sha) h0 g h2 f
  refine ⟨g', c', ?_, r2, ?_⟩
  · rw [lookAll_append, h1, Res.bind_ok]
    show (refresh sha size g f >>= fun r => lookAll sha size r.1 r.2 []) = _
    rw [r1]; rfl
  · rw [r3, lastRead_snoc]
    cases f with
    | none => exact h3
    | some t => rfl

theorem same_again (g : Grafts) (c : Int) (text : Bytes) (h : g.sum = sha text) (n : Nat) :
    lookAll sha size g c (List.replicate n (some text)) = .ok (g, if n = 0 then c else 0) := by
  induction n generalizing c with
  | zero => rfl
  | succ n ih =>
    rw [List.replicate_succ]
    unfold lookAll refresh
    dsimp only
    rw [if_pos h, Res.bind_ok, ih]
    simp

theorem settled_spec (h0 : 0 < size) (files : List (Option Bytes)) (ht : Tells sha files) (text : Bytes) (n : Nat) (hs : Settled files text n)
    (ls : List Bytes) (hl : IsText text ls) (gs : List Graft) (c : Int) (hf : File size ls gs c) :
    ∃ g, lookAll sha size new 0 files = .ok (g, if n = 0 then c else 0) ∧ Keys g.map ∧ ∀ id, lookup g.map id = parentsOf gs id := by
  obtain ⟨pre, rfl, hne⟩ := hs
  obtain ⟨g0, c0, h1, h2, h3⟩ := lookAll_total (sha := sha) h0 pre
  obtain ⟨gs', c', m, p1, p2, p3⟩ := parse_spec size h0 text ls hl
  obtain ⟨rfl, rfl⟩ := file_unique p2 hf
  have hsum : g0.sum ≠ sha text := by
    rw [h3]
    cases hp : lastRead pre with
    | none =>
      dsimp only
      intro e
      exact ht.nonzero text (by simp) e.symm
    | some t =>
      dsimp only
      intro e
      have := ht.inj t text (by simp [lastRead_mem hp]) (by simp) e
      exact hne (by rw [hp, this])
  refine ⟨⟨m, sha text⟩, ?_, parseLoop_keys _ _ _ _ _ (by simp [Keys]) p1, p3⟩
  rw [lookAll_append, h1, Res.bind_ok, List.replicate_succ]
  unfold lookAll refresh
  dsimp only
  rw [if_neg hsum, p1]
  dsimp only
  rw [Res.bind_ok, same_again _ _ _ rfl]

theorem gone_spec (h0 : 0 < size) (pre : List (Option Bytes)) :
    ∃ g, lookAll sha size new 0 (pre ++ [none]) = .ok (g, 0) ∧ g.map = [] ∧
      (g.sum = match lastRead pre with | none => List.replicate 32 0 | some t => sha t) := by
  obtain ⟨g0, c0, h1, h2, h3⟩ := lookAll_total (sha := sha) h0 pre
  refine ⟨{ g0 with map := [] }, ?_, rfl, h3⟩
  rw [lookAll_append, h1]
  rfl

theorem upToDate_spec (h0 : 0 < size) (fs : List (Option Bytes)) (f : Option Bytes) (ht : Tells sha (fs ++ [f])) (hu : UpToDate (fs ++ [f]))
    (gs : List Graft) (hf : Says size f gs 0) :
    ∃ g, lookAll sha size new 0 (fs ++ [f]) = .ok (g, 0) ∧ Keys g.map ∧ ∀ id, lookup g.map id = parentsOf gs id := by
  rcases hu with h | ⟨text, n, hs⟩
  · rw [List.getLast?_concat] at h
    obtain rfl := Option.some.inj h
    obtain ⟨g, h1, h2, _⟩ := gone_spec (sha := sha) h0 fs
    obtain ⟨rfl, _⟩ := hf
    exact ⟨g, h1, by rw [h2]; simp [Keys], fun id => by rw [h2]; rfl⟩
  · have hfe : f = some text := by
      obtain ⟨pre, e, _⟩ := hs
      have := congrArg List.getLast? e
      rw [List.getLast?_concat, List.replicate_succ', ← List.append_assoc, List.getLast?_concat] at this
      exact Option.some.inj this
    subst hfe
    obtain ⟨ls, hl, hff⟩ := hf
    obtain ⟨g, h1, h2, h3⟩ := settled_spec (sha := sha) h0 _ ht text n hs ls hl gs 0 hff
    refine ⟨g, ?_, h2, h3⟩
    rw [h1]; simp

theorem upToDate_again {fs : List (Option Bytes)} {f : Option Bytes} (h : UpToDate (fs ++ [f])) : UpToDate (fs ++ [f] ++ [f]) := by
  rcases h with h | ⟨text, n, pre, e, hne⟩
  · rw [List.getLast?_concat] at h
    obtain rfl := Option.some.inj h
    exact .inl (by rw [List.getLast?_concat])
  · have hfe : f = some text := by
      have := congrArg List.getLast? e
      rw [List.getLast?_concat, List.replicate_succ', ← List.append_assoc, List.getLast?_concat] at this
      exact Option.some.inj this
    refine .inr ⟨text, n + 1, pre, ?_, hne⟩
    rw [e, hfe, List.replicate_succ' (n := n + 1), List.append_assoc]

theorem tells_again {fs : List (Option Bytes)} {f : Option Bytes} (h : Tells sha (fs ++ [f])) : Tells sha (fs ++ [f] ++ [f]) := by
  have hm : ∀ x, x ∈ fs ++ [f] ++ [f] → x ∈ fs ++ [f] := by
    intro x hx
    rcases List.mem_append.mp hx with hx | hx
    · exact hx
    · exact List.mem_append.mpr (.inr hx)
  exact ⟨fun a b ha hb => h.inj a b (hm _ ha) (hm _ hb), fun a ha => h.nonzero a (hm _ ha)⟩

theorem tells_none {fs : List (Option Bytes)} (h : Tells sha fs) : Tells sha (fs ++ [none]) := by
  have hm : ∀ x : Bytes, some x ∈ fs ++ [none] → some x ∈ fs := by
    intro x hx
    rcases List.mem_append.mp hx with hx | hx
    · exact hx
    · simp at hx
  exact ⟨fun a b ha hb => h.inj a b (hm _ ha) (hm _ hb), fun a ha => h.nonzero a (hm _ ha)⟩

theorem refresh_of_look {fs : List (Option Bytes)} {f : Option Bytes} {g g' : Grafts} {c c' : Int} (h : lookAll sha size new 0 fs = .ok (g, c))
    (h' : lookAll sha size new 0 (fs ++ [f]) = .ok (g', c')) : refresh sha size g f = .ok (g', c') := by
  rw [lookAll_append, h, Res.bind_ok] at h'
  unfold lookAll at h'
  cases hr : refresh sha size g f with
  | ok r => rw [hr, Res.bind_ok] at h'; unfold lookAll at h'; cases h'; rfl
  | err e => rw [hr] at h'; cases h'
  | ub => rw [hr] at h'; cases h'

/-! ## Roots -/

theorem tostr_take (id : Bytes) (h : id.length ≤ 32) : ∃ t, Oid.tostr id.length 65 (some id) = .ok t ∧ t.take (2 * id.length) = Oid.Spec.hex id := by
  obtain ⟨t, h1, h2⟩ := FetchHead.tostr_hex id (by omega)
  refine ⟨t, h1, ?_⟩
  obtain ⟨r, hr⟩ : ∃ r, t = Oid.Spec.hex id ++ r := ⟨_, by rw [← h2, List.takeWhile_append_dropWhile]⟩
  rw [hr, ← FetchHead.hex_length id, List.take_left]

theorem rootsText_spec (h32 : size ≤ 32) : ∀ (roots : List Bytes), (∀ id ∈ roots, id.length = size) → rootsText size roots = .ok (Spec.rootsFile roots) := by
  intro roots
  induction roots with
  | nil => intro _; rfl
  | cons id roots ih =>
    intro h
    have hid := h id (by simp)
    obtain ⟨t, h1, h2⟩ := tostr_take id (by omega)
    rw [hid] at h1 h2
    unfold rootsText
    rw [h1, Res.bind_ok, ih (fun x hx => h x (by simp [hx])), Res.bind_ok, h2]
    unfold Spec.rootsFile
    rw [List.flatMap_cons]

theorem hex_isId (id : Bytes) : IsId id.length (Oid.Spec.hex id) id :=
  ⟨FetchHead.hex_length id, Oid.mapM_hexVal_digits _ (Oid.nibbles_lt id)⟩

theorem roots_say (roots : List Bytes) (h : ∀ id ∈ roots, id.length = size) : Says size (some (Spec.rootsFile roots)) (roots.map fun id => ⟨id, []⟩) 0 := by
  refine ⟨roots.map Oid.Spec.hex, ⟨?_, .inl ?_⟩, ?_⟩
  · intro l hl
    obtain ⟨id, _, rfl⟩ := List.mem_map.mp hl
    intro hc
    exact (FetchHead.hex_chars id _ hc).2.2 rfl
  · unfold Spec.rootsFile
    rw [List.flatMap_map]
  · induction roots with
    | nil => exact .done
    | cons id roots ih =>
      have hid := h id (by simp)
      refine .good _ _ _ _ _ ⟨Oid.Spec.hex id, [], by simp, ?_, rfl, by simp⟩ (ih (fun x hx => h x (by simp [hx])))
      rw [← hid]; exact hex_isId id

theorem parentsOf_roots (roots : List Bytes) (id : Bytes) : parentsOf (roots.map fun id => ⟨id, []⟩) id = if id ∈ roots then some [] else none := by
  induction roots with
  | nil => rfl
  | cons r roots ih =>
    rw [List.map_cons, parentsOf_cons, ih]
    by_cases h : id ∈ roots
    · simp [h]
    · by_cases h' : r = id
      · subst h'; simp [h]
      · have : id ≠ r := fun e => h' e.symm
        simp [h, h', this]

end Verif.Grafts
