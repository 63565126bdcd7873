import Verif.HashMap.LemmasRehash
import Verif.HashMap.Spec
import Mathlib.Data.List.Nodup
/-! # C25: the hash map is a map -/
namespace Verif.HashMap
open Spec
variable {K V : Type} [DecidableEq K]

/-- One call of the API: removing an absent key reports `GIT_ENOTFOUND` and leaves the map as it is. -/
def stepM (hash : K → Nat) (h : Map K V) : Op K V → Res (Map K V)
  | .put k v => put hash h k v
  | .remove k => match remove hash h k with
    | .err _ => .ok h
    | r => r
  | .clear => .ok (clear h)

/-- a history of calls, starting from `GIT_HASHMAP_INIT` -/
def runM (hash : K → Nat) : Map K V → List (Op K V) → Res (Map K V)
  | h, [] => .ok h
  | h, op :: ops => match stepM hash h op with
    | .ok h => runM hash h ops
    | .err e => .err e
    | .ub => .ub

/-! ### refinement -/

/-- the table `h` represents the finite map `m` -/
structure Rel (hash : K → Nat) (h : Map K V) (m : List (K × V)) : Prop where
  inv : Inv hash h
  nodup : (m.map (·.1)).Nodup
  has : ∀ k v, Has h k v ↔ (k, v) ∈ m

theorem put_ok {hash : K → Nat} {h : Map K V} (hi : Inv hash h) (hs : h.size < 2 ^ 30) (key : K) (v : V) :
    ∃ h', put hash h key v = .ok h' ∧ Inv hash h' ∧ ∀ k w, Has h' k w ↔ (k = key ∧ w = v) ∨ (k ≠ key ∧ Has h k w) := by
  obtain ⟨h1, e1, i1, has1, _, hn1, hroom⟩ := grow_ok hi hs
  unfold put
  rw [e1]
  simp only [Res.bind_ok]
  rw [if_neg hn1, start_eq (i1.pow2 hn1)]
  obtain ⟨s, hst⟩ := exists_stop i1 hn1 key
  obtain ⟨x, ex, hx⟩ := putLoop_ok i1 hn1 key s hst (2 * h1.n) 0 h1.n (by omega) (by have := hst.lt; omega) (.inl rfl)
  rw [ex]
  simp only [Res.bind_ok]
  obtain ⟨i2, has2⟩ := store_spec i1 hn1 hroom key v s x hst hx
  refine ⟨_, rfl, i2, ?_⟩
  intro k w
  rw [has2, has1]

theorem clear_ok {hash : K → Nat} {h : Map K V} (hi : Inv hash h) : Inv hash (clear h) ∧ ∀ k v, ¬ Has (clear h) k v := by
  unfold clear
  split
  · rename_i hn
    refine ⟨hi, ?_⟩
    rintro k v ⟨i, a, b⟩
    have := hi.inb i (by rw [a]; simp)
    omega
  · refine ⟨?_, ?_⟩
    · constructor
      · exact hi.shape
      · intro i h; exact absurd rfl h
      · intro i h; cases h
      · intro i j k v w h; cases h
      · intro i k v h; cases h
      · show 0 = cnt _ h.n
        rw [cnt_false]; intro i; rfl
      · show 0 = cnt _ h.n
        rw [cnt_false]; intro i; rfl
      · exact Nat.zero_le _
    · rintro k v ⟨i, a, b⟩; cases a

theorem entries_mem {hash : K → Nat} {h : Map K V} (hi : Inv hash h) (k : K) (v : V) : (k, v) ∈ entries h ↔ Has h k v := by
  unfold entries
  rw [List.mem_filterMap]
  constructor
  · rintro ⟨i, hi', e⟩
    split at e
    · rename_i hl; exact ⟨i, hl, e⟩
    · cases e
  · rintro ⟨i, a, b⟩
    exact ⟨i, List.mem_range.mpr (hi.inb i (by rw [a]; simp)), by rw [if_pos a]; exact b⟩

theorem entries_aux {hash : K → Nat} {h : Map K V} (hi : Inv hash h) (n : Nat) :
    (((List.range n).filterMap (fun i => if h.flag i = .live then h.kv i else none)).map (·.1)).Nodup ∧
    ((List.range n).filterMap (fun i => if h.flag i = .live then h.kv i else none)).length = cnt (fun i => h.flag i = .live) n := by
  induction n with
  | zero => exact ⟨by simp, rfl⟩
  | succ n ih =>
    rw [List.range_succ, List.filterMap_append, cnt]
    by_cases hl : h.flag n = .live
    · obtain ⟨⟨k, v⟩, hk⟩ := hi.kvok n hl
      have e : List.filterMap (fun i => if h.flag i = .live then h.kv i else none) [n] = [(k, v)] := by simp [hl, hk]
      rw [e]
      constructor
      · rw [List.map_append]
        apply List.Nodup.append ih.1 (by simp)
        intro x hx hx2
        simp only [List.map_cons, List.map_nil, List.mem_singleton] at hx2
        subst hx2
        obtain ⟨⟨k', w⟩, hp, hkk⟩ := List.mem_map.mp hx
        simp only at hkk
        subst hkk
        rw [List.mem_filterMap] at hp
        obtain ⟨i, hin, e⟩ := hp
        split at e
        · rename_i hli
          have := hi.uniq i n k' w v hli hl e hk
          have := List.mem_range.mp hin
          omega
        · cases e
      · rw [List.length_append, ih.2]; simp [hl]
    · have e : List.filterMap (fun i => if h.flag i = .live then h.kv i else none) [n] = [] := by simp [hl]
      rw [e]
      simpa [hl] using ih

theorem Rel.entries_perm {hash : K → Nat} {h : Map K V} {m : List (K × V)} (hr : Rel hash h m) : (entries h).Perm m := by
  have hn : ((entries h).map (·.1)).Nodup := (entries_aux hr.inv h.n).1
  rw [List.perm_ext_iff_of_nodup (List.Nodup.of_map _ hn) (List.Nodup.of_map _ hr.nodup)]
  rintro ⟨k, v⟩
  rw [entries_mem hr.inv, hr.has]

theorem Rel.size {hash : K → Nat} {h : Map K V} {m : List (K × V)} (hr : Rel hash h m) : h.size = m.length := by
  rw [hr.inv.size, ← (entries_aux hr.inv h.n).2]
  exact hr.entries_perm.length_eq

theorem filter_nodup {m : List (K × V)} (h : (m.map (·.1)).Nodup) (p : K × V → Bool) : ((m.filter p).map (·.1)).Nodup :=
  List.Sublist.nodup (List.Sublist.map _ List.filter_sublist) h

theorem step_ok {hash : K → Nat} {h : Map K V} {m : List (K × V)} (hr : Rel hash h m) (hs : m.length < 2 ^ 30) (op : Op K V) :
    ∃ h', stepM hash h op = .ok h' ∧ Rel hash h' (step m op) := by
  cases op with
  | put k v =>
    obtain ⟨h', e, hi, has⟩ := put_ok hr.inv (by rw [hr.size]; exact hs) k v
    refine ⟨h', e, hi, ?_, ?_⟩
    · simp only [step, List.map_cons, List.nodup_cons]
      refine ⟨?_, filter_nodup hr.nodup _⟩
      intro hc
      obtain ⟨p, hp, hpk⟩ := List.mem_map.mp hc
      simp at hp
      exact hp.2 hpk
    · intro k' w
      rw [has, hr.has]
      simp only [step, List.mem_cons, Prod.mk.injEq, List.mem_filter, decide_eq_true_eq]
      constructor
      · rintro (h | ⟨h1, h2⟩)
        · exact .inl h
        · exact .inr ⟨h2, h1⟩
      · rintro (h | ⟨h1, h2⟩)
        · exact .inl h
        · exact .inr ⟨h2, h1⟩
  | remove k =>
    by_cases hex : ∃ v, Has h k v
    · obtain ⟨h', e, hi, has, _⟩ := remove_spec hr.inv k hex
      refine ⟨h', by simp [stepM, e], hi, filter_nodup hr.nodup _, ?_⟩
      intro k' w
      rw [has, hr.has]
      simp [step]
    · have hno : ∀ v, ¬ Has h k v := fun v hv => hex ⟨v, hv⟩
      have e : remove hash h k = .err (-3) := by unfold remove; rw [idx_not_found hr.inv hno]
      refine ⟨h, by simp [stepM, e], hr.inv, filter_nodup hr.nodup _, ?_⟩
      intro k' w
      rw [hr.has]
      simp only [step, List.mem_filter, decide_eq_true_eq]
      constructor
      · intro hm
        refine ⟨hm, ?_⟩
        rintro rfl
        exact hno w ((hr.has _ _).mpr hm)
      · exact fun hm => hm.1
  | clear =>
    obtain ⟨hi, hno⟩ := clear_ok hr.inv
    exact ⟨clear h, rfl, hi, by simp [step], by intro k v; simp [step, hno]⟩

theorem run_ok {hash : K → Nat} (ops : List (Op K V)) : ∀ (h : Map K V) (m : List (K × V)), Rel hash h m →
    (∀ pre, pre <+: ops → (pre.foldl step m).length < 2 ^ 30) →
    ∃ h', runM hash h ops = .ok h' ∧ Rel hash h' (ops.foldl step m) := by
  induction ops with
  | nil => intro h m hr _; exact ⟨h, rfl, hr⟩
  | cons op ops ih =>
    intro h m hr hb
    obtain ⟨h1, e1, r1⟩ := step_ok hr (hb [] (by simp)) op
    obtain ⟨h2, e2, r2⟩ := ih h1 (step m op) r1 (by
      intro pre hpre
      exact hb (op :: pre) (by simpa using hpre))
    exact ⟨h2, by rw [runM, e1]; exact e2, r2⟩

theorem lookup_eq {m : List (K × V)} (hn : (m.map (·.1)).Nodup) (k : K) (v : V) : lookup m k = some v ↔ (k, v) ∈ m := by
  unfold lookup
  induction m with
  | nil => simp
  | cons p m ih =>
    simp only [List.map_cons, List.nodup_cons] at hn
    rw [List.find?_cons]
    by_cases hp : p.1 = k
    · simp only [hp, decide_true]
      constructor
      · intro h
        simp at h
        subst h
        rw [← hp]; simp
      · intro h
        rcases List.mem_cons.mp h with h | h
        · subst h; rfl
        · exact absurd (List.mem_map.mpr ⟨_, h, rfl⟩) (by rw [← hp]; exact hn.1)
    · simp only [hp, decide_false]
      rw [ih hn.2]
      constructor
      · exact .tail _
      · intro h
        rcases List.mem_cons.mp h with h | h
        · subst h; exact absurd rfl hp
        · exact h

theorem get_rel {hash : K → Nat} {h : Map K V} {m : List (K × V)} (hr : Rel hash h m) (k : K) :
    get hash h k = match lookup m k with | some v => .ok v | none => .err (-3) := by
  unfold get
  cases hl : lookup m k with
  | some v =>
    obtain ⟨i, a, b⟩ := (hr.has k v).mpr ((lookup_eq hr.nodup k v).mp hl)
    rw [idx_found hr.inv a b]
    simp [b]
  | none =>
    rw [idx_not_found hr.inv]
    intro v hv
    have := (lookup_eq hr.nodup k v).mpr ((hr.has k v).mp hv)
    rw [hl] at this; cases this

theorem rel_init (hash : K → Nat) : Rel hash (init : Map K V) [] :=
  ⟨init_inv hash, by simp, fun _ _ => ⟨fun ⟨_, a, _⟩ => (by cases a), fun h => (by cases h)⟩⟩

/-- For every hash function and every history of `put`, `remove` and `clear` calls that never holds `2^30` keys or more, every call
returns (all probe loops terminate, no bucket outside the arrays or never written is read), and afterwards `get` and `contains`
answer as the finite map does, `size` is its number of keys and iteration yields exactly its bindings, each once. -/
theorem C25_map (hash : K → Nat) (ops : List (Op K V)) (hsmall : ∀ pre, pre <+: ops → (after pre).length < 2 ^ 30) :
    ∃ h, runM hash init ops = .ok h ∧
      (∀ k, get hash h k = match lookup (after ops) k with | some v => .ok v | none => .err (-3)) ∧
      (∀ k, contains hash h k = .ok (lookup (after ops) k).isSome) ∧
      h.size = (after ops).length ∧
      (entries h).Perm (after ops) := by
  obtain ⟨h, e, hr⟩ := run_ok (hash := hash) ops init [] (rel_init hash) hsmall
  refine ⟨h, e, get_rel hr, ?_, hr.size, hr.entries_perm⟩
  intro k
  have := get_rel hr k
  unfold get at this
  unfold contains
  unfold after
  cases hl : lookup (ops.foldl step []) k with
  | some v =>
    obtain ⟨i, a, b⟩ := (hr.has k v).mpr ((lookup_eq hr.nodup k v).mp hl)
    rw [idx_found hr.inv a b]; rfl
  | none =>
    rw [idx_not_found hr.inv]
    · rfl
    · intro v hv
      have := (lookup_eq hr.nodup k v).mpr ((hr.has k v).mp hv)
      rw [hl] at this; cases this

/-- `remove` succeeds exactly on the keys that are present. -/
theorem C25_remove_reports (hash : K → Nat) (ops : List (Op K V)) (hsmall : ∀ pre, pre <+: ops → (after pre).length < 2 ^ 30) (k : K) :
    ∃ h, runM hash init ops = .ok h ∧
      ((lookup (after ops) k).isSome → ∃ h', remove hash h k = .ok h') ∧ (lookup (after ops) k = none → remove hash h k = .err (-3)) := by
  obtain ⟨h, e, hr⟩ := run_ok (hash := hash) ops init [] (rel_init hash) hsmall
  refine ⟨h, e, ?_, ?_⟩
  · intro hs
    obtain ⟨v, hv⟩ := Option.isSome_iff_exists.mp hs
    obtain ⟨h', e', _⟩ := remove_spec hr.inv k ⟨v, (hr.has k v).mpr ((lookup_eq hr.nodup k v).mp hv)⟩
    exact ⟨h', e'⟩
  · intro hn
    unfold remove
    rw [idx_not_found hr.inv]
    intro v hv
    have := (lookup_eq hr.nodup k v).mpr ((hr.has k v).mp hv)
    rw [show lookup (List.foldl step [] ops) k = none from hn] at this; cases this

/-! ### concrete cases: a constant hash function, so that every key collides, tombstones and growth from 4 to 8 buckets -/

def exOps : List (Op Nat Nat) := [.put 1 10, .put 2 20, .remove 1, .put 3 30, .put 1 11, .put 4 40, .put 5 50, .remove 2, .put 3 31]

example : ∀ pre, pre <+: exOps → (after pre).length < 2 ^ 30 := by
  intro pre hpre
  have h1 : ∀ (l : List (Op Nat Nat)) (m : List (Nat × Nat)), (l.foldl step m).length ≤ m.length + l.length := by
    intro l
    induction l with
    | nil => intro m; simp
    | cons o l ih =>
      intro m
      have : (step m o).length ≤ m.length + 1 := by
        cases o with
        | put k v => simp only [step, List.length_cons]; have := List.length_filter_le (fun p : Nat × Nat => decide (p.1 ≠ k)) m; omega
        | remove k => simp only [step]; have := List.length_filter_le (fun p : Nat × Nat => decide (p.1 ≠ k)) m; omega
        | clear => simp [step]
      have := ih (step m o)
      simp only [List.foldl_cons, List.length_cons]; omega
  have h2 := hpre.length_le
  have h3 := h1 pre []
  have h4 : exOps.length = 9 := rfl
  unfold after
  simp only [List.length_nil] at h3
  omega

example : (match runM (fun _ => 7) init exOps with | .ok h => some (h.n, h.size, h.occ, entries h) | _ => none) =
    some (8, 4, 5, [(1, 11), (5, 50), (3, 31), (4, 40)]) := by decide +kernel

/-- FINDING. The set flavour of iteration does not advance: once it has returned a key, calling it again with the iterator it left
returns the same key for ever, so `_foreach` on a non-empty set would not terminate. (No caller in the library iterates a set.) -/
theorem C25_set_iterate_does_not_advance (h : Map K V) (it it' : Nat) (k : K) (e : setIterate h it = .ok (k, it')) :
    setIterate h it' = .ok (k, it') := by
  unfold setIterate at e ⊢
  have key : ∀ fuel it it' k, setIterLoop h fuel it = .ok (k, it') → ∀ fuel', 0 < fuel' → setIterLoop h fuel' it' = .ok (k, it') := by
    intro fuel
    induction fuel with
    | zero => intro it it' k h; simp [setIterLoop] at h
    | succ fuel ih =>
      intro it it' k he fuel' hf'
      rw [setIterLoop] at he
      split at he
      · rename_i hlt
        split at he
        · rename_i hl
          split at he
          · cases he
          · rename_i p hp
            cases he
            obtain ⟨f, rfl⟩ : ∃ f, fuel' = f + 1 := ⟨fuel' - 1, by omega⟩
            rw [setIterLoop, if_pos hlt, if_pos hl, hp]
        · exact ih _ _ _ he fuel' hf'
      · cases he
  exact key _ _ _ _ e _ (by omega)

example : setIterate (K := Nat) (V := Nat) ⟨4, 1, 1, 3, fun i => if i = 2 then .live else .empty, fun _ => some (9, 0)⟩ 0 = .ok (9, 2) := by
  decide +kernel

end Verif.HashMap
