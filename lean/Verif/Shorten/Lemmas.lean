import Verif.Shorten.Model
import Verif.Shorten.Spec
import Verif.Oid.Lemmas
import Mathlib.Data.List.Basic
namespace Verif.Shorten
open Spec
open Oid.Spec (hexVal)

/-! ### counting -/

theorem howMany_snoc (A : List (List UInt8)) (d p : List UInt8) : howMany (A ++ [d]) p = howMany A p + if p <+: d then 1 else 0 := by
  unfold howMany
  rw [List.filter_append, List.length_append]
  by_cases h : p <+: d <;> simp [h]

theorem howMany_pos {A : List (List UInt8)} {p : List UInt8} : 1 ≤ howMany A p ↔ ∃ ds ∈ A, p <+: ds := by
  unfold howMany
  constructor
  · intro h
    obtain ⟨ds, hds⟩ := List.exists_mem_of_length_pos h
    have := List.mem_filter.mp hds
    exact ⟨ds, this.1, by simpa using this.2⟩
  · rintro ⟨ds, h1, h2⟩
    exact List.length_pos_of_mem (List.mem_filter.mpr ⟨h1, by simpa using h2⟩)

theorem howMany_mono {A : List (List UInt8)} {p q : List UInt8} (h : p <+: q) : howMany A q ≤ howMany A p := by
  unfold howMany
  rw [← List.countP_eq_length_filter, ← List.countP_eq_length_filter]
  refine List.countP_mono_left fun ds _ hds => ?_
  have hq : q <+: ds := by simpa using hds
  simpa using h.trans hq

theorem howMany_one {A : List (List UInt8)} {p d e : List UInt8} (h : howMany A p = 1) (hd : d ∈ A) (he : e ∈ A) (pd : p <+: d) (pe : p <+: e) : d = e := by
  unfold howMany at h
  obtain ⟨x, hx⟩ := List.length_eq_one_iff.mp h
  have h1 : d ∈ A.filter fun ds => decide (p <+: ds) := List.mem_filter.mpr ⟨hd, by simpa using pd⟩
  have h2 : e ∈ A.filter fun ds => decide (p <+: ds) := List.mem_filter.mpr ⟨he, by simpa using pe⟩
  rw [hx] at h1 h2
  simp at h1 h2
  rw [h1, h2]

/-! ### texts -/

/-- `t` is the text of the digits of `ds` from `n` on -/
def TailOf (t : Bytes) (ds : List UInt8) (n : Nat) : Prop := ∀ i v, ds[n + i]? = some v → ∃ c, t[i]? = some c ∧ Oid.fromhex c = (v.toNat : Int)

theorem TailOf.drop {t : Bytes} {ds : List UInt8} {n : Nat} (h : TailOf t ds n) (k : Nat) : TailOf (t.drop k) ds (n + k) := by
  intro i v hv
  obtain ⟨c, h1, h2⟩ := h (k + i) v (by rw [← hv]; congr 1; omega)
  exact ⟨c, by rw [List.getElem?_drop]; exact h1, h2⟩

theorem TailOf.char {t : Bytes} {ds : List UInt8} {n i : Nat} {v : UInt8} (h : TailOf t ds n) (hv : ds[n + i]? = some v) :
    ∃ c, charAt t i = .ok c ∧ Oid.fromhex c = (v.toNat : Int) := by
  obtain ⟨c, h1, h2⟩ := h i v hv
  refine ⟨c, ?_, h2⟩
  have hl : i < t.length := by
    refine Nat.lt_of_not_le fun hc => ?_
    rw [List.getElem?_eq_none hc] at h1
    cases h1
  unfold charAt
  rw [if_pos hl, List.getD_eq_getElem?_getD, h1]
  rfl

/-! ### the state -/

structure Inv (A B : List (List UInt8)) (os : Shorten) (P : Nat → List UInt8) (ex : Nat) : Prop where
  cap : os.count ≤ os.nodes.length
  pos : 0 < os.count
  lim : os.count < SHRT_MAX
  zeros : ∀ k, os.count ≤ k → k < os.nodes.length → os.nodes[k]? = some zero
  ids : ∀ ds ∈ A, ds.length = 40 ∧ ∀ v ∈ ds, v < 16
  root : P 0 = []
  rootInner : ∃ ch, os.nodes[0]? = some (.inner ch)
  inj : ∀ i j, i < os.count → j < os.count → P i = P j → i = j
  depth : ∀ k, k < os.count → (P k).length ≤ 40
  innerDepth : ∀ k ch, k < os.count → os.nodes[k]? = some (.inner ch) → (P k).length < 40 ∧ ch.length = 16
  child : ∀ k ch c j, k < os.count → os.nodes[k]? = some (.inner ch) → ch[c]? = some j → j ≠ 0 →
    j.natAbs < os.count ∧ (∃ v : UInt8, v.toNat = c ∧ P j.natAbs = P k ++ [v]) ∧ (j < 0 → j.natAbs ≠ ex ∧ ∃ t, os.nodes[j.natAbs]? = some (.leaf t)) ∧
      (0 < j → (∃ ch', os.nodes[j.natAbs]? = some (.inner ch')) ∨ (P j.natAbs).length = 40 ∨ j.natAbs = ex)
  leaf : ∀ k t, k < os.count → os.nodes[k]? = some (.leaf t) →
    ∃ ds ∈ A, P k <+: ds ∧ TailOf t ds (P k).length ∧ ((P k).length < 40 → howMany A (P k) = 1)
  inner2 : ∀ k ch, k ≠ 0 → k < os.count → os.nodes[k]? = some (.inner ch) → 2 ≤ howMany B (P k)
  reach : ∀ k ch ds, k < os.count → os.nodes[k]? = some (.inner ch) → ds ∈ A → P k <+: ds →
    ∃ v j, ds[(P k).length]? = some v ∧ ch[v.toNat]? = some j ∧ j ≠ 0
  pre : ∀ k n, k < os.count → n < (P k).length → ∃ k', k' < os.count ∧ P k' = (P k).take n ∧ ∃ ch, os.nodes[k']? = some (.inner ch)

theorem zero_get (c : Nat) (j : Int) (h : (List.replicate 16 (0 : Int))[c]? = some j) : j = 0 := by
  rw [List.getElem?_replicate] at h
  split at h
  · cases h; rfl
  · cases h

theorem pushLeaf_eq {os : Shorten} {idx : Nat} {ch : List Int} {v : UInt8} {t : Bytes} (hcap : os.count ≤ os.nodes.length) (hpos : 0 < os.count)
    (hz : ∀ k, os.count ≤ k → k < os.nodes.length → os.nodes[k]? = some zero) (hlim : os.count < SHRT_MAX)
    (hidx : idx < os.count) (hn : os.nodes[idx]? = some (.inner ch)) (hl : ch.length = 16) (hv : v < 16) :
    (∃ os', pushLeaf os idx (v.toNat : Int) t = .ok (os', false) ∧ os'.full = true ∧ os.count + 1 = SHRT_MAX) ∨
    ∃ os', pushLeaf os idx (v.toNat : Int) t = .ok (os', true) ∧ os'.count = os.count + 1 ∧ os'.minLength = os.minLength ∧ os'.full = os.full ∧
      os'.count ≤ os'.nodes.length ∧ os'.count < SHRT_MAX ∧ os'.nodes[idx]? = some (.inner (ch.set v.toNat (-(os.count : Int)))) ∧
      os'.nodes[os.count]? = some (.leaf t) ∧ (∀ k, k < os.count → k ≠ idx → os'.nodes[k]? = os.nodes[k]?) ∧
      (∀ k, os'.count ≤ k → k < os'.nodes.length → os'.nodes[k]? = some zero) := by
  have hg : (grow os).count = os.count ∧ (grow os).minLength = os.minLength ∧ (grow os).full = os.full ∧ os.count < (grow os).nodes.length ∧
      (∀ k, k < os.count → (grow os).nodes[k]? = os.nodes[k]?) ∧ ∀ k, os.count ≤ k → k < (grow os).nodes.length → (grow os).nodes[k]? = some zero := by
    unfold grow
    split
    · refine ⟨rfl, rfl, rfl, by simp; omega, fun k hk => List.getElem?_append_left (by omega), fun k h1 h2 => ?_⟩
      dsimp only at h2 ⊢
      rw [List.length_append, List.length_replicate] at h2
      rw [List.getElem?_append_right (by omega), List.getElem?_replicate, if_pos (by omega)]
    · exact ⟨rfl, rfl, rfl, by omega, fun k _ => rfl, hz⟩
  obtain ⟨g1, g2, g3, g4, g5, g6⟩ := hg
  unfold pushLeaf
  generalize grow os = os1 at *
  by_cases hm : os1.count + 1 = SHRT_MAX
  · exact .inl ⟨_, by rw [if_pos hm], rfl, by rw [← g1]; exact hm⟩
  · right
    have hnat : v.toNat < 16 := by simpa using UInt8.lt_iff_toNat_lt.mp hv
    have hs : setChild os1.nodes idx (v.toNat : Int) (-(os1.count : Int)) = .ok (os1.nodes.set idx (.inner (ch.set v.toNat (-(os1.count : Int))))) := by
      unfold setChild
      rw [g5 idx hidx, hn]
      dsimp only
      rw [if_pos ⟨by omega, by omega⟩]
      simp
    refine ⟨{ os1 with count := os1.count + 1, nodes := (os1.nodes.set idx (.inner (ch.set v.toNat (-(os1.count : Int))))).set os1.count (.leaf t) }, ?_, ?_⟩
    · dsimp only
      rw [if_neg hm, hs, Res.bind_ok, if_pos (by simp; omega)]
    · dsimp only
      refine ⟨by omega, g2, g3, by simp; omega, by omega, ?_, ?_, fun k h1 h2 => ?_, fun k h1 h2 => ?_⟩
      · rw [List.getElem?_set_ne (by omega), List.getElem?_set_self (by omega), g1]
      · rw [← g1, List.getElem?_set_self (by simp; omega)]
      · rw [List.getElem?_set_ne (by omega), List.getElem?_set_ne (by omega), g5 k h1]
      · rw [List.length_set, List.length_set] at h2
        rw [List.getElem?_set_ne (by omega), List.getElem?_set_ne (by omega), g6 k (by omega) h2]

theorem take_snoc' {d : List UInt8} {i : Nat} {v : UInt8} (h : d[i]? = some v) : d.take (i + 1) = d.take i ++ [v] := Oid.take_snoc d i v h

/-- the label of the new node -/
def label (P : Nat → List UInt8) (n : Nat) (p : List UInt8) : Nat → List UInt8 := fun k => if k = n then p else P k

theorem label_new (P : Nat → List UInt8) (n : Nat) (p : List UInt8) : label P n p n = p := if_pos rfl
theorem label_old {P : Nat → List UInt8} {n k : Nat} {p : List UInt8} (h : k ≠ n) : label P n p k = P k := if_neg h

theorem prefix_snoc {p : List UInt8} {ds : List UInt8} {v : UInt8} (h : p <+: ds) (hv : ds[p.length]? = some v) : p ++ [v] <+: ds := by
  have := (List.prefix_iff_eq_take.mp h)
  rw [this, ← take_snoc']
  · exact List.take_prefix _ _
  · exact hv

theorem get_of_prefix {p ds : List UInt8} {v : UInt8} (h : p ++ [v] <+: ds) : p <+: ds ∧ ds[p.length]? = some v := by
  obtain ⟨r, rfl⟩ := h
  exact ⟨⟨[v] ++ r, by simp⟩, by simp⟩

/-- a leaf on the way is split -/
theorem split_inv {A B : List (List UInt8)} {os : Shorten} {P : Nat → List UInt8} {idx : Nat} {t : Bytes} (h : Inv A B os P idx) (hidx : idx < os.count)
    (hn : os.nodes[idx]? = some (.leaf t)) (hd : (P idx).length < 40) (hB : 2 ≤ howMany B (P idx)) :
    (∃ os', splitLeaf os idx = .ok (os', false) ∧ os'.full = true ∧ os.count + 1 = SHRT_MAX) ∨
    ∃ os' P', splitLeaf os idx = .ok (os', true) ∧ Inv A B os' P' 0 ∧ idx < os'.count ∧ (∃ ch, os'.nodes[idx]? = some (.inner ch)) ∧ P' idx = P idx ∧
      os'.minLength = os.minLength ∧ os'.full = os.full ∧ os'.count = os.count + 1 := by
  obtain ⟨ds, hds, hp, ht, h1⟩ := h.leaf idx t hidx hn
  have h1 := h1 hd
  obtain ⟨hlen, hsmall⟩ := h.ids ds hds
  have hget : ds[(P idx).length]? = some ds[(P idx).length] := List.getElem?_eq_getElem (by omega)
  generalize hv : ds[(P idx).length] = v at hget
  have hv16 : v < 16 := hsmall v (List.mem_of_getElem? hget)
  obtain ⟨c, hc, hhex⟩ := TailOf.char (i := 0) ht (by rw [Nat.add_zero]; exact hget)
  have hidx0 : idx ≠ 0 := by
    rintro rfl
    obtain ⟨ch, hch⟩ := h.rootInner
    rw [hch] at hn
    cases hn
  have hlt : idx < os.nodes.length := by have := h.cap; omega
  have hz : ∀ k, os.count ≤ k → k < (os.nodes.set idx zero).length → (os.nodes.set idx zero)[k]? = some zero := by
    intro k h2 h3
    rw [List.length_set] at h3
    rw [List.getElem?_set_ne (by omega)]
    exact h.zeros k h2 h3
  have heq : splitLeaf os idx = pushLeaf { os with nodes := os.nodes.set idx zero } idx (v.toNat : Int) (t.drop 1) := by
    unfold splitLeaf
    rw [hn]
    dsimp only
    rw [hc, Res.bind_ok, hhex]
  rw [heq]
  rcases pushLeaf_eq (os := { os with nodes := os.nodes.set idx zero }) (idx := idx) (ch := List.replicate 16 0) (v := v) (t := t.drop 1)
      (by simpa using h.cap) h.pos hz h.lim hidx (List.getElem?_set_self hlt) (by simp) hv16 with h2 | ⟨os', e1, e2, e3, e4, e5, e6, e7, e8, e9, e10⟩
  · exact .inl h2
  right
  dsimp only at e2 e3 e4 e7 e8 e9 e10
  have hnat : v.toNat < 16 := by simpa using UInt8.lt_iff_toNat_lt.mp hv16
  have eo : ∀ k, k < os.count → k ≠ idx → os'.nodes[k]? = os.nodes[k]? := fun k hk hne => by
    rw [e9 k hk hne, List.getElem?_set_ne (by omega)]
  refine ⟨os', label P os.count (P idx ++ [v]), e1, ?_, by omega, ⟨_, e7⟩, label_old (by omega), e3, e4, e2⟩
  have lo : ∀ k, k < os.count → label P os.count (P idx ++ [v]) k = P k := fun k hk => label_old (by omega)
  have ln : label P os.count (P idx ++ [v]) os.count = P idx ++ [v] := label_new _ _ _
  have cases3 : ∀ k, k < os'.count → k = os.count ∨ (k < os.count ∧ k = idx) ∨ (k < os.count ∧ k ≠ idx) := by intro k hk; omega
  have fresh : ∀ k, k < os.count → P k ≠ P idx ++ [v] := by
    intro k hk he
    obtain ⟨k', h2, h3, ch, h4⟩ := h.pre k (P idx).length hk (by rw [he]; simp)
    rw [he, List.take_left' rfl] at h3
    have := h.inj k' idx h2 hidx h3
    subst this
    rw [hn] at h4
    cases h4
  constructor
  case cap => exact e5
  case pos => omega
  case lim => exact e6
  case zeros => exact e10
  case ids => exact h.ids
  case root => rw [lo 0 h.pos]; exact h.root
  case rootInner => rw [eo 0 h.pos (by omega)]; exact h.rootInner
  case inj =>
    intro i j hi hj he
    by_cases h2 : i = os.count
    · by_cases h3 : j = os.count
      · omega
      · subst h2
        rw [ln, lo j (by omega)] at he
        exact absurd he.symm (fresh j (by omega))
    · by_cases h3 : j = os.count
      · subst h3
        rw [ln, lo i (by omega)] at he
        exact absurd he (fresh i (by omega))
      · rw [lo i (by omega), lo j (by omega)] at he
        exact h.inj i j (by omega) (by omega) he
  case depth =>
    intro k hk
    rcases cases3 k hk with rfl | ⟨h2, _⟩ | ⟨h2, _⟩
    · rw [ln]; simp; omega
    · rw [lo k h2]; exact h.depth k h2
    · rw [lo k h2]; exact h.depth k h2
  case innerDepth =>
    intro k ch hk hch
    rcases cases3 k hk with rfl | ⟨h2, rfl⟩ | ⟨h2, h3⟩
    · rw [e8] at hch; cases hch
    · rw [e7] at hch; cases hch
      rw [lo k h2]
      exact ⟨hd, by simp⟩
    · rw [eo k h2 h3] at hch
      rw [lo k h2]
      exact h.innerDepth k ch h2 hch
  case child =>
    intro k ch c j hk hch hj hne
    rcases cases3 k hk with rfl | ⟨h2, rfl⟩ | ⟨h2, h3⟩
    · rw [e8] at hch; cases hch
    · rw [e7] at hch; cases hch
      by_cases hcv : v.toNat = c
      · subst hcv
        rw [List.getElem?_set_self (by simpa using hnat)] at hj
        have hj := Option.some.inj hj
        subst hj
        rw [Int.natAbs_neg, Int.natAbs_natCast, ln, lo k h2]
        refine ⟨by omega, ⟨v, rfl, rfl⟩, fun _ => ⟨by have := h.pos; omega, _, e8⟩, fun hp => ?_⟩
        have := h.pos
        omega
      · rw [List.getElem?_set_ne hcv] at hj
        exact absurd (zero_get c j hj) hne
    · rw [eo k h2 h3] at hch
      obtain ⟨g1, ⟨w, g2, g3⟩, g4, g5⟩ := h.child k ch c j h2 hch hj hne
      rw [lo _ g1, lo k h2]
      refine ⟨by omega, ⟨w, g2, g3⟩, fun hneg => ?_, fun hpos => ?_⟩
      · obtain ⟨hji, t', ht'⟩ := g4 hneg
        rw [eo _ g1 hji]
        exact ⟨by omega, t', ht'⟩
      · by_cases hji : j.natAbs = idx
        · rw [hji, e7]; exact .inl ⟨_, rfl⟩
        · rw [eo _ g1 hji]
          rcases g5 hpos with h' | h' | h'
          · exact .inl h'
          · exact .inr (.inl h')
          · exact absurd h' hji
  case leaf =>
    intro k t' hk hk'
    rcases cases3 k hk with rfl | ⟨h2, rfl⟩ | ⟨h2, h3⟩
    · rw [e8] at hk'
      cases hk'
      rw [ln]
      have hpp := prefix_snoc hp hget
      refine ⟨ds, hds, hpp, by simpa using ht.drop 1, fun _ => ?_⟩
      have g1 := howMany_mono (A := A) (show P idx <+: P idx ++ [v] from ⟨[v], rfl⟩)
      have g2 := howMany_pos.mpr ⟨ds, hds, hpp⟩
      omega
    · rw [e7] at hk'; cases hk'
    · rw [eo k h2 h3] at hk'
      rw [lo k h2]
      exact h.leaf k t' h2 hk'
  case inner2 =>
    intro k ch h0 hk hch
    rcases cases3 k hk with rfl | ⟨h2, rfl⟩ | ⟨h2, h3⟩
    · rw [e8] at hch; cases hch
    · rw [lo k h2]; exact hB
    · rw [eo k h2 h3] at hch
      rw [lo k h2]
      exact h.inner2 k ch h0 h2 hch
  case reach =>
    intro k ch ds' hk hch hds' hp'
    rcases cases3 k hk with rfl | ⟨h2, rfl⟩ | ⟨h2, h3⟩
    · rw [e8] at hch; cases hch
    · rw [e7] at hch; cases hch
      rw [lo k h2] at hp' ⊢
      have := howMany_one h1 hds' hds hp' hp
      subst this
      refine ⟨v, -(os.count : Int), hget, List.getElem?_set_self (by simpa using hnat), ?_⟩
      have := h.pos
      omega
    · rw [eo k h2 h3] at hch
      rw [lo k h2] at hp' ⊢
      exact h.reach k ch ds' h2 hch hds' hp'
  case pre =>
    intro k n hk hn'
    have old : ∀ k, k < os.count → ∀ n, n < (P k).length → ∃ k', k' < os'.count ∧ label P os.count (P idx ++ [v]) k' = (P k).take n ∧ ∃ ch, os'.nodes[k']? = some (.inner ch) := by
      intro k hk n hn'
      obtain ⟨k', g1, g2, ch, g3⟩ := h.pre k n hk hn'
      refine ⟨k', by omega, by rw [lo k' g1]; exact g2, ch, ?_⟩
      rw [eo k' g1 (by rintro rfl; rw [hn] at g3; cases g3)]
      exact g3
    rcases cases3 k hk with rfl | ⟨h2, _⟩ | ⟨h2, _⟩
    · rw [ln] at hn' ⊢
      by_cases hl : n = (P idx).length
      · subst hl
        exact ⟨idx, by omega, by rw [lo idx hidx, List.take_left' rfl], _, e7⟩
      · rw [List.length_append, List.length_singleton] at hn'
        rw [List.take_append_of_le_length (by omega)]
        exact old idx hidx n (by omega)
    · rw [lo k h2] at hn' ⊢; exact old k h2 n hn'
    · rw [lo k h2] at hn' ⊢; exact old k h2 n hn'

/-- the new id gets its leaf -/
theorem finish_inv {A : List (List UInt8)} {os : Shorten} {P : Nat → List UInt8} {idx : Nat} {ch : List Int} {d : List UInt8} {t : Bytes} {v : UInt8}
    (h : Inv A (A ++ [d]) os P 0) (hidx : idx < os.count) (hn : os.nodes[idx]? = some (.inner ch)) (hd : d.length = 40 ∧ ∀ v ∈ d, v < 16)
    (hp : P idx <+: d) (hv : d[(P idx).length]? = some v) (h0 : ch[v.toNat]? = some 0) (ht : TailOf t d ((P idx).length + 1)) :
    (∃ os', pushLeaf os idx (v.toNat : Int) t = .ok (os', false) ∧ os'.full = true ∧ os.count + 1 = SHRT_MAX) ∨
    ∃ os' P', pushLeaf os idx (v.toNat : Int) t = .ok (os', true) ∧ Inv (A ++ [d]) (A ++ [d]) os' P' 0 ∧ os'.minLength = os.minLength ∧ os'.full = os.full ∧
      howMany A (P idx ++ [v]) = 0 ∧ os'.count = os.count + 1 := by
  have hv16 : v < 16 := hd.2 v (List.mem_of_getElem? hv)
  obtain ⟨hdep, hlen⟩ := h.innerDepth idx ch hidx hn
  have hnat : v.toNat < 16 := by simpa using UInt8.lt_iff_toNat_lt.mp hv16
  have hpp := prefix_snoc hp hv
  have none : ∀ ds ∈ A, ¬ P idx ++ [v] <+: ds := by
    intro ds hds hpre
    obtain ⟨g1, g2⟩ := get_of_prefix hpre
    obtain ⟨w, j, g3, g4, g5⟩ := h.reach idx ch ds hidx hn hds g1
    rw [g2] at g3
    cases g3
    rw [h0] at g4
    cases g4
    exact g5 rfl
  have hcount : howMany A (P idx ++ [v]) = 0 := by
    by_contra hc
    obtain ⟨ds, h1, h2⟩ := howMany_pos.mp (Nat.pos_of_ne_zero hc)
    exact none ds h1 h2
  rcases pushLeaf_eq (v := v) (t := t) h.cap h.pos h.zeros h.lim hidx hn hlen hv16 with h2 | ⟨os', e1, e2, e3, e4, e5, e6, e7, e8, eo, e10⟩
  · exact .inl h2
  right
  refine ⟨os', label P os.count (P idx ++ [v]), e1, ?_, e3, e4, hcount, e2⟩
  have lo : ∀ k, k < os.count → label P os.count (P idx ++ [v]) k = P k := fun k hk => label_old (by omega)
  have ln : label P os.count (P idx ++ [v]) os.count = P idx ++ [v] := label_new _ _ _
  have cases3 : ∀ k, k < os'.count → k = os.count ∨ (k < os.count ∧ k = idx) ∨ (k < os.count ∧ k ≠ idx) := by intro k hk; omega
  have fresh : ∀ k, k < os.count → P k ≠ P idx ++ [v] := by
    intro k hk he
    have hlt : k < os.nodes.length := by have := h.cap; omega
    cases hnode : os.nodes[k] with
    | leaf t' =>
      obtain ⟨ds, g1, g2, _⟩ := h.leaf k t' hk (by rw [List.getElem?_eq_getElem hlt, hnode])
      rw [he] at g2
      exact none ds g1 g2
    | inner ch' =>
      have hk0 : k ≠ 0 := by
        rintro rfl
        rw [h.root] at he
        simp at he
      have := h.inner2 k ch' hk0 hk (by rw [List.getElem?_eq_getElem hlt, hnode])
      rw [howMany_snoc, he, hcount] at this
      split at this <;> omega
  have off : ∀ k t', k < os.count → os.nodes[k]? = some (.leaf t') → (P k).length < 40 → ¬ P k <+: d := by
    intro k t' hk hleaf hk40 hkd
    by_cases hle : (P k).length ≤ (P idx).length
    · -- on the way
      have hpre : P k <+: P idx := List.prefix_of_prefix_length_le hkd hp hle
      rcases Nat.lt_or_eq_of_le hle with hlt | heq
      · obtain ⟨k', g1, g2, ch', g3⟩ := h.pre idx (P k).length hidx hlt
        rw [← List.prefix_iff_eq_take.mp hpre] at g2
        have := h.inj k' k g1 hk g2
        subst this
        rw [hleaf] at g3
        cases g3
      · have := h.inj k idx hk hidx (hpre.eq_of_length heq)
        subst this
        rw [hleaf] at hn
        cases hn
    · obtain ⟨ds, g1, g2, _⟩ := h.leaf k t' hk hleaf
      refine none ds g1 (List.IsPrefix.trans ?_ g2)
      exact List.prefix_of_prefix_length_le hpp hkd (by simp; omega)
  constructor
  case cap => exact e5
  case pos => omega
  case lim => exact e6
  case zeros => exact e10
  case ids =>
    intro ds hds
    rcases List.mem_append.mp hds with hds | hds
    · exact h.ids ds hds
    · simp at hds; subst hds; exact hd
  case root => rw [lo 0 h.pos]; exact h.root
  case rootInner =>
    by_cases hi : idx = 0
    · subst hi; exact ⟨_, e7⟩
    · rw [eo 0 h.pos (by omega)]; exact h.rootInner
  case inj =>
    intro i j hi hj he
    by_cases h2 : i = os.count
    · by_cases h3 : j = os.count
      · omega
      · subst h2
        rw [ln, lo j (by omega)] at he
        exact absurd he.symm (fresh j (by omega))
    · by_cases h3 : j = os.count
      · subst h3
        rw [ln, lo i (by omega)] at he
        exact absurd he (fresh i (by omega))
      · rw [lo i (by omega), lo j (by omega)] at he
        exact h.inj i j (by omega) (by omega) he
  case depth =>
    intro k hk
    rcases cases3 k hk with rfl | ⟨h2, _⟩ | ⟨h2, _⟩
    · rw [ln]; simp; omega
    · rw [lo k h2]; exact h.depth k h2
    · rw [lo k h2]; exact h.depth k h2
  case innerDepth =>
    intro k ch' hk hch
    rcases cases3 k hk with rfl | ⟨h2, rfl⟩ | ⟨h2, h3⟩
    · rw [e8] at hch; cases hch
    · rw [e7] at hch; cases hch
      rw [lo k h2]
      exact ⟨hdep, by simpa using hlen⟩
    · rw [eo k h2 h3] at hch
      rw [lo k h2]
      exact h.innerDepth k ch' h2 hch
  case child =>
    have old : ∀ k ch' c j, k < os.count → os.nodes[k]? = some (.inner ch') → ch'[c]? = some j → j ≠ 0 →
        j.natAbs < os'.count ∧ (∃ w : UInt8, w.toNat = c ∧ label P os.count (P idx ++ [v]) j.natAbs = P k ++ [w]) ∧
          (j < 0 → j.natAbs ≠ 0 ∧ ∃ t, os'.nodes[j.natAbs]? = some (.leaf t)) ∧
          (0 < j → (∃ ch', os'.nodes[j.natAbs]? = some (.inner ch')) ∨ (label P os.count (P idx ++ [v]) j.natAbs).length = 40 ∨ j.natAbs = 0) := by
      intro k ch' c j hk hch hj hne
      obtain ⟨g1, ⟨w, g2, g3⟩, g4, g5⟩ := h.child k ch' c j hk hch hj hne
      rw [lo _ g1]
      refine ⟨by omega, ⟨w, g2, g3⟩, fun hneg => ?_, fun hpos => ?_⟩
      · obtain ⟨hj0, t', ht'⟩ := g4 hneg
        rw [eo _ g1 (by rintro rfl; rw [hn] at ht'; cases ht')]
        exact ⟨by omega, t', ht'⟩
      · by_cases hji : j.natAbs = idx
        · rw [hji, e7]; exact .inl ⟨_, rfl⟩
        · rw [eo _ g1 hji]
          exact g5 hpos
    intro k ch' c j hk hch hj hne
    rcases cases3 k hk with rfl | ⟨h2, rfl⟩ | ⟨h2, h3⟩
    · rw [e8] at hch; cases hch
    · rw [e7] at hch; cases hch
      by_cases hcv : v.toNat = c
      · subst hcv
        rw [List.getElem?_set_self (by omega)] at hj
        have hj := Option.some.inj hj
        subst hj
        rw [Int.natAbs_neg, Int.natAbs_natCast, ln, lo k h2]
        refine ⟨by omega, ⟨v, rfl, rfl⟩, fun _ => ⟨by have := h.pos; omega, _, e8⟩, fun hp => ?_⟩
        have := h.pos
        omega
      · rw [List.getElem?_set_ne hcv] at hj
        rw [lo k h2]
        exact old k ch c j h2 hn hj hne
    · rw [eo k h2 h3] at hch
      rw [lo k h2]
      exact old k ch' c j h2 hch hj hne
  case leaf =>
    intro k t' hk hk'
    rcases cases3 k hk with rfl | ⟨h2, rfl⟩ | ⟨h2, h3⟩
    · rw [e8] at hk'
      cases hk'
      rw [ln]
      refine ⟨d, by simp, hpp, by simpa using ht, fun _ => ?_⟩
      rw [howMany_snoc, hcount, if_pos hpp]
    · rw [e7] at hk'; cases hk'
    · rw [eo k h2 h3] at hk'
      rw [lo k h2]
      obtain ⟨ds, g1, g2, g3, g4⟩ := h.leaf k t' h2 hk'
      refine ⟨ds, by simp [g1], g2, g3, fun hl => ?_⟩
      rw [howMany_snoc, g4 hl, if_neg (off k t' h2 hk' hl)]
  case inner2 =>
    intro k ch' hk0 hk hch
    rcases cases3 k hk with rfl | ⟨h2, rfl⟩ | ⟨h2, h3⟩
    · rw [e8] at hch; cases hch
    · rw [lo k h2]; exact h.inner2 k ch hk0 h2 hn
    · rw [eo k h2 h3] at hch
      rw [lo k h2]
      exact h.inner2 k ch' hk0 h2 hch
  case reach =>
    intro k ch' ds' hk hch hds' hp'
    rcases cases3 k hk with rfl | ⟨h2, rfl⟩ | ⟨h2, h3⟩
    · rw [e8] at hch; cases hch
    · rw [e7] at hch; cases hch
      rw [lo k h2] at hp' ⊢
      rcases List.mem_append.mp hds' with hds' | hds'
      · obtain ⟨w, j, g1, g2, g3⟩ := h.reach k ch ds' h2 hn hds' hp'
        refine ⟨w, j, g1, ?_, g3⟩
        rw [List.getElem?_set_ne]
        · exact g2
        · intro he
          rw [he] at h0
          rw [g2] at h0
          exact g3 (Option.some.inj h0)
      · simp at hds'
        subst hds'
        refine ⟨v, -(os.count : Int), hv, List.getElem?_set_self (by omega), ?_⟩
        have := h.pos
        omega
    · rw [eo k h2 h3] at hch
      rw [lo k h2] at hp' ⊢
      rcases List.mem_append.mp hds' with hds' | hds'
      · exact h.reach k ch' ds' h2 hch hds' hp'
      · simp at hds'
        subst hds'
        -- `k` is on the way of the new id
        by_cases hle : (P k).length < (P idx).length
        · have hpre : P k <+: P idx := List.prefix_of_prefix_length_le hp' hp (by omega)
          obtain ⟨hi40, _⟩ := h.innerDepth idx ch hidx hn
          -- some id of `A` passes through `idx`
          have hidx0 : idx ≠ 0 := by
            rintro rfl
            rw [h.root] at hle
            simp at hle
          have h2' := h.inner2 idx ch hidx0 hidx hn
          rw [howMany_snoc, if_pos hp] at h2'
          obtain ⟨e, g1, g2⟩ := howMany_pos.mp (show 1 ≤ howMany A (P idx) by omega)
          obtain ⟨w, j, g3, g4, g5⟩ := h.reach k ch' e h2 hch g1 (hpre.trans g2)
          refine ⟨w, j, ?_, g4, g5⟩
          obtain ⟨r1, hr1⟩ := g2
          obtain ⟨r2, hr2⟩ := hp
          rw [← hr1, List.getElem?_append_left hle] at g3
          rw [← hr2, List.getElem?_append_left hle]
          exact g3
        · by_cases heq : (P k).length = (P idx).length
          · have hpre : P k <+: P idx := List.prefix_of_prefix_length_le hp' hp (by omega)
            exact absurd (h.inj k idx h2 hidx (hpre.eq_of_length heq)) h3
          · have hk0 : k ≠ 0 := by
              rintro rfl
              rw [h.root] at hle heq
              rw [List.length_nil] at hle heq
              omega
            have h2' := h.inner2 k ch' hk0 h2 hch
            rw [howMany_snoc, if_pos hp'] at h2'
            obtain ⟨e, g1, g2⟩ := howMany_pos.mp (show 1 ≤ howMany A (P k) by omega)
            refine absurd (List.IsPrefix.trans ?_ g2) (none e g1)
            exact List.prefix_of_prefix_length_le hpp hp' (by simp; omega)
  case pre =>
    intro k n hk hn'
    have old : ∀ k, k < os.count → ∀ n, n < (P k).length → ∃ k', k' < os'.count ∧ label P os.count (P idx ++ [v]) k' = (P k).take n ∧ ∃ ch, os'.nodes[k']? = some (.inner ch) := by
      intro k hk n hn'
      obtain ⟨k', g1, g2, ch', g3⟩ := h.pre k n hk hn'
      refine ⟨k', by omega, by rw [lo k' g1]; exact g2, ?_⟩
      by_cases hki : k' = idx
      · rw [hki]; exact ⟨_, e7⟩
      · rw [eo k' g1 hki]; exact ⟨ch', g3⟩
    rcases cases3 k hk with rfl | ⟨h2, _⟩ | ⟨h2, _⟩
    · rw [ln] at hn' ⊢
      by_cases hl : n = (P idx).length
      · subst hl
        exact ⟨idx, by omega, by rw [lo idx hidx, List.take_left' rfl], _, e7⟩
      · rw [List.length_append, List.length_singleton] at hn'
        rw [List.take_append_of_le_length (by omega)]
        exact old idx hidx n (by omega)
    · rw [lo k h2] at hn' ⊢; exact old k h2 n hn'
    · rw [lo k h2] at hn' ⊢; exact old k h2 n hn'

/-- a reference to a leaf on the way is made one to a node -/
theorem flip_inv {A B : List (List UInt8)} {os : Shorten} {P : Nat → List UInt8} {idx : Nat} {ch : List Int} {c : Nat} {j : Int}
    (h : Inv A B os P 0) (hidx : idx < os.count) (hn : os.nodes[idx]? = some (.inner ch)) (hj : ch[c]? = some j) (hneg : j < 0) :
    ∃ nodes, setChild os.nodes idx (c : Int) (-j) = .ok nodes ∧ Inv A B { os with nodes := nodes } P (-j).toNat ∧ (-j).toNat < os.count ∧
      (∃ v : UInt8, v.toNat = c ∧ P (-j).toNat = P idx ++ [v]) ∧ ∃ t, nodes[(-j).toNat]? = some (.leaf t) := by
  have hlt : idx < os.nodes.length := by have := h.cap; omega
  have hc : c < ch.length := by
    refine Nat.lt_of_not_le fun hc => ?_
    rw [List.getElem?_eq_none hc] at hj
    cases hj
  obtain ⟨g1, ⟨v, g2, g3⟩, g4, _⟩ := h.child idx ch c j hidx hn hj (by omega)
  obtain ⟨_, t, ht⟩ := g4 hneg
  have hji : (-j).toNat = j.natAbs := by omega
  rw [hji]
  have hne : j.natAbs ≠ idx := by rintro he; rw [he, hn] at ht; cases ht
  have es : os.nodes.set idx (.inner (ch.set c (-j))) = os.nodes.set idx (.inner (ch.set (c : Int).toNat (-j))) := by simp
  have eself : (os.nodes.set idx (.inner (ch.set c (-j))))[idx]? = some (.inner (ch.set c (-j))) := List.getElem?_set_self hlt
  have eo : ∀ k, k ≠ idx → (os.nodes.set idx (.inner (ch.set c (-j))))[k]? = os.nodes[k]? := fun k hk => List.getElem?_set_ne (by omega)
  refine ⟨os.nodes.set idx (.inner (ch.set c (-j))), ?_, ?_, g1, ⟨v, g2, g3⟩, t, by rw [eo _ hne]; exact ht⟩
  · unfold setChild
    rw [hn]
    dsimp only
    rw [if_pos ⟨by omega, by omega⟩, es]
  have inn : ∀ (k : Nat) (ch' : List Int), (os.nodes.set idx (.inner (ch.set c (-j))))[k]? = some (.inner ch') → ∃ ch'' : List Int, os.nodes[k]? = some (.inner ch'') ∧ ch''.length = ch'.length ∧
      ∀ (n : Nat) (x : Int), ch''[n]? = some x → x ≠ 0 → ∃ y : Int, ch'[n]? = some y ∧ y ≠ 0 := by
    intro k ch' hch
    by_cases hk : k = idx
    · subst hk
      rw [eself] at hch
      cases hch
      refine ⟨ch, hn, by simp, fun n x hx hx0 => ?_⟩
      by_cases hnc : c = n
      · subst hnc
        exact ⟨-j, List.getElem?_set_self hc, by omega⟩
      · exact ⟨x, by rw [List.getElem?_set_ne hnc]; exact hx, hx0⟩
    · rw [eo k hk] at hch
      exact ⟨ch', hch, rfl, fun n x hx hx0 => ⟨x, hx, hx0⟩⟩
  constructor
  case cap => simpa using h.cap
  case pos => exact h.pos
  case lim => exact h.lim
  case zeros =>
    intro k h1 h2
    dsimp only at h1 h2 ⊢
    rw [List.length_set] at h2
    rw [eo k (by omega)]
    exact h.zeros k h1 h2
  case ids => exact h.ids
  case root => exact h.root
  case rootInner =>
    by_cases h0 : idx = 0
    · subst h0; exact ⟨_, eself⟩
    · dsimp only; rw [eo 0 (by omega)]; exact h.rootInner
  case inj => exact h.inj
  case depth => exact h.depth
  case innerDepth =>
    intro k ch' hk hch
    obtain ⟨ch'', q1, q2, _⟩ := inn k ch' hch
    have := h.innerDepth k ch'' hk q1
    exact ⟨this.1, by rw [← q2]; exact this.2⟩
  case child =>
    intro k ch' n x hk hch hx hx0
    dsimp only at hk hch ⊢
    have old : ∀ ch'', os.nodes[k]? = some (.inner ch'') → ch''[n]? = some x → ¬ (k = idx ∧ n = c) →
      x.natAbs < os.count ∧ (∃ v : UInt8, v.toNat = n ∧ P x.natAbs = P k ++ [v]) ∧
        (x < 0 → x.natAbs ≠ j.natAbs ∧ ∃ t, (os.nodes.set idx (.inner (ch.set c (-j))))[x.natAbs]? = some (.leaf t)) ∧
        (0 < x → (∃ ch', (os.nodes.set idx (.inner (ch.set c (-j))))[x.natAbs]? = some (.inner ch')) ∨ (P x.natAbs).length = 40 ∨ x.natAbs = j.natAbs) := by
      intro ch'' hch'' hx' hnot
      obtain ⟨q1, ⟨w, q2, q3⟩, q4, q5⟩ := h.child k ch'' n x hk hch'' hx' hx0
      refine ⟨q1, ⟨w, q2, q3⟩, fun hneg' => ?_, fun hpos => ?_⟩
      · obtain ⟨_, t', ht'⟩ := q4 hneg'
        refine ⟨fun he => hnot ?_, t', ?_⟩
        · rw [he, g3] at q3
          have e1 := List.append_inj_left' q3 rfl
          have e2 := List.append_inj_right' q3 rfl
          have e3 : v = w := by simpa using e2
          exact ⟨(h.inj idx k hidx hk e1).symm, by rw [← q2, ← e3, g2]⟩
        · rw [eo _ (by rintro rfl; rw [hn] at ht'; cases ht')]
          exact ht'
      · rcases q5 hpos with ⟨ch3, q⟩ | q | q
        · by_cases hxi : x.natAbs = idx
          · rw [hxi]; exact .inl ⟨_, eself⟩
          · rw [eo _ hxi]; exact .inl ⟨ch3, q⟩
        · exact .inr (.inl q)
        · omega
    by_cases hki : k = idx
    · subst hki
      rw [eself] at hch
      cases hch
      by_cases hnc : c = n
      · subst hnc
        rw [List.getElem?_set_self hc] at hx
        have hx := Option.some.inj hx
        subst hx
        rw [Int.natAbs_neg]
        exact ⟨g1, ⟨v, g2, g3⟩, fun hh => by omega, fun _ => .inr (.inr rfl)⟩
      · rw [List.getElem?_set_ne hnc] at hx
        exact old ch hn hx fun hh => hnc hh.2.symm
    · rw [eo k hki] at hch
      exact old ch' hch hx fun hh => hki hh.1
  case leaf =>
    intro k t' hk hk'
    dsimp only at hk hk'
    rw [eo k (by rintro rfl; rw [eself] at hk'; cases hk')] at hk'
    exact h.leaf k t' hk hk'
  case inner2 =>
    intro k ch' h0 hk hch
    obtain ⟨ch'', q1, _, _⟩ := inn k ch' hch
    exact h.inner2 k ch'' h0 hk q1
  case reach =>
    intro k ch' ds hk hch hds hp
    obtain ⟨ch'', q1, _, q3⟩ := inn k ch' hch
    obtain ⟨w, x, r1, r2, r3⟩ := h.reach k ch'' ds hk q1 hds hp
    obtain ⟨y, r4, r5⟩ := q3 _ x r2 r3
    exact ⟨w, y, r1, r4, r5⟩
  case pre =>
    intro k n hk hn'
    obtain ⟨k', q1, q2, ch', q3⟩ := h.pre k n hk hn'
    refine ⟨k', q1, q2, ?_⟩
    by_cases hki : k' = idx
    · rw [hki]; exact ⟨_, eself⟩
    · exact ⟨ch', by dsimp only; rw [eo k' hki]; exact q3⟩

end Verif.Shorten
