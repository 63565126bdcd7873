import Verif.Shorten.Lemmas
/-! # C04: the shortest length that identifies every id -/
namespace Verif.Shorten
open Spec
open Oid.Spec (hexVal)

theorem Inv.more {A : List (List UInt8)} {os : Shorten} {P : Nat → List UInt8} (h : Inv A A os P 0) (d : List UInt8) : Inv A (A ++ [d]) os P 0 :=
  { h with inner2 := (fun k ch h0 hk hch => Nat.le_trans (h.inner2 k ch h0 hk hch) (by rw [howMany_snoc]; omega)) }

/-- an id that was there -/
theorem again_inv {A : List (List UInt8)} {os : Shorten} {P : Nat → List UInt8} {idx ex : Nat} {d : List UInt8} (h : Inv A (A ++ [d]) os P ex)
    (hex : ex = 0 ∨ ex = idx) (hidx : idx < os.count) (hd : d.length = 40) (hp : P idx = d) (hA : d ∈ A) : Inv (A ++ [d]) (A ++ [d]) os P 0 := by
  have hmem : ∀ ds, ds ∈ A ++ [d] → ds ∈ A := by
    intro ds hds
    rcases List.mem_append.mp hds with h | h
    · exact h
    · simp at h; rw [h]; exact hA
  refine { h with ids := ?_, child := ?_, leaf := ?_, reach := ?_ }
  · exact fun ds hds => h.ids ds (hmem ds hds)
  · intro k ch c j hk hch hj hj0
    obtain ⟨g1, g2, g3, g4⟩ := h.child k ch c j hk hch hj hj0
    refine ⟨g1, g2, fun hn => ⟨by omega, (g3 hn).2⟩, fun hpos => ?_⟩
    rcases g4 hpos with g | g | g
    · exact .inl g
    · exact .inr (.inl g)
    · rcases hex with rfl | rfl
      · exact .inr (.inr g)
      · exact .inr (.inl (by rw [g, hp, hd]))
  · intro k t hk hleaf
    obtain ⟨ds, g1, g2, g3, g4⟩ := h.leaf k t hk hleaf
    refine ⟨ds, List.mem_append_left _ g1, g2, g3, fun hl => ?_⟩
    rw [howMany_snoc, g4 hl, if_neg]
    intro hkd
    obtain ⟨k', q1, q2, ch, q3⟩ := h.pre idx (P k).length hidx (by rw [hp, hd]; exact hl)
    rw [hp, ← List.prefix_iff_eq_take.mp hkd] at q2
    have := h.inj k' k q1 hk q2
    subst this
    rw [hleaf] at q3
    cases q3
  · exact fun k ch ds hk hch hds => h.reach k ch ds hk hch (hmem ds hds)

theorem addLoop_inv {A : List (List UInt8)} {d : List UInt8} {text : Bytes} (hd : d.length = 40 ∧ ∀ v ∈ d, v < 16) (ht : TailOf text d 0) :
    ∀ (n i : Nat) (os : Shorten) (P : Nat → List UInt8) (idx : Nat) (isLeaf : Bool), n + i = 40 →
      Inv A (A ++ [d]) os P (if isLeaf then idx else 0) → idx < os.count → P idx = d.take i →
      (isLeaf = true → ∃ t, os.nodes[idx]? = some (.leaf t)) → (isLeaf = false → (∃ ch, os.nodes[idx]? = some (.inner ch)) ∨ i = 40) →
      (0 < i → 1 ≤ howMany A (d.take i)) →
      (∃ os', addLoop text n i os idx isLeaf = .ok (os', none) ∧ os'.full = true ∧ SHRT_MAX ≤ os.count + n + (if isLeaf then 1 else 0)) ∨
      ∃ os' P' k, addLoop text n i os idx isLeaf = .ok (os', some k) ∧ Inv (A ++ [d]) (A ++ [d]) os' P' 0 ∧ os'.minLength = os.minLength ∧
        os'.full = os.full ∧ os'.count ≤ os.count + n + (if isLeaf then 1 else 0) ∧ k ≤ 40 ∧ (0 < k → 1 ≤ howMany A (d.take k)) ∧
        (k = 40 ∨ howMany A (d.take (k + 1)) = 0) := by
  intro n
  induction n with
  | zero =>
    intro i os P idx isLeaf hi h hidx hP hleaf hinner hpos
    have hi40 : i = 40 := by omega
    subst hi40
    have htk : d.take 40 = d := List.take_of_length_le (by omega)
    rw [htk] at hP hpos
    obtain ⟨e, he, hpe⟩ := howMany_pos.mp (hpos (by omega))
    have : d = e := hpe.eq_of_length (by rw [hd.1, (h.ids e he).1])
    subst this
    refine .inr ⟨os, P, 40, rfl, again_inv h ?_ hidx hd.1 hP he, rfl, rfl, by omega, by omega, fun _ => by rw [htk]; exact hpos (by omega), .inl rfl⟩
    cases isLeaf
    · exact .inl rfl
    · exact .inr rfl
  | succ n ih =>
    intro i os P idx isLeaf hi h hidx hP hleaf hinner hpos
    have hget : d[i]? = some d[i] := List.getElem?_eq_getElem (by omega)
    generalize d[i] = v at hget
    have hv16 : v < 16 := hd.2 v (List.mem_of_getElem? hget)
    have hnat : v.toNat < 16 := by simpa using UInt8.lt_iff_toNat_lt.mp hv16
    obtain ⟨ch, hch, hhex⟩ := ht.char (i := i) (by rw [Nat.zero_add]; exact hget)
    have hPl : (P idx).length = i := by rw [hP, List.length_take]; omega
    have hpd : P idx <+: d := by rw [hP]; exact List.take_prefix _ _
    rw [addLoop, hch, Res.bind_ok]
    dsimp only
    rw [hhex, if_neg (by omega)]
    -- after the split
    have rest : ∀ (os1 : Shorten) (P1 : Nat → List UInt8), Inv A (A ++ [d]) os1 P1 0 → idx < os1.count → (∃ ch, os1.nodes[idx]? = some (.inner ch)) → P1 idx = d.take i →
        os1.minLength = os.minLength → os1.full = os.full → os1.count = os.count + (if isLeaf then 1 else 0) →
        (∃ os', (child os1 idx (v.toNat : Int) >>= fun j =>
          if j = 0 then pushLeaf os1 idx (v.toNat : Int) (text.drop (i + 1)) >>= fun p => .ok (p.1, if p.2 then some i else none)
          else if j < 0 then setChild os1.nodes idx (v.toNat : Int) (-j) >>= fun nodes => addLoop text n (i + 1) { os1 with nodes := nodes } (-j).toNat true
          else addLoop text n (i + 1) os1 j.toNat false) = .ok (os', none) ∧ os'.full = true ∧ SHRT_MAX ≤ os.count + (n + 1) + (if isLeaf then 1 else 0)) ∨
        ∃ os' P' k, (child os1 idx (v.toNat : Int) >>= fun j =>
          if j = 0 then pushLeaf os1 idx (v.toNat : Int) (text.drop (i + 1)) >>= fun p => .ok (p.1, if p.2 then some i else none)
          else if j < 0 then setChild os1.nodes idx (v.toNat : Int) (-j) >>= fun nodes => addLoop text n (i + 1) { os1 with nodes := nodes } (-j).toNat true
          else addLoop text n (i + 1) os1 j.toNat false) = .ok (os', some k) ∧ Inv (A ++ [d]) (A ++ [d]) os' P' 0 ∧ os'.minLength = os.minLength ∧
          os'.full = os.full ∧ os'.count ≤ os.count + (n + 1) + (if isLeaf then 1 else 0) ∧ k ≤ 40 ∧ (0 < k → 1 ≤ howMany A (d.take k)) ∧
          (k = 40 ∨ howMany A (d.take (k + 1)) = 0) := by
      rintro os1 P1 h1 hidx1 ⟨cs, hcs⟩ hP1 hmin hfull hcnt
      have hPl1 : (P1 idx).length = i := by rw [hP1, List.length_take]; omega
      have hpd1 : P1 idx <+: d := by rw [hP1]; exact List.take_prefix _ _
      obtain ⟨_, hlen⟩ := h1.innerDepth idx cs hidx1 hcs
      have hj : cs[v.toNat]? = some cs[v.toNat] := List.getElem?_eq_getElem (by omega)
      generalize cs[v.toNat] = j at hj
      have hc : child os1 idx (v.toNat : Int) = .ok j := by
        unfold child
        rw [hcs]
        dsimp only
        rw [Int.toNat_natCast, hj]
      rw [hc, Res.bind_ok]
      have htake : P1 idx ++ [v] = d.take (i + 1) := by rw [take_snoc' hget, hP1]
      by_cases hj0 : j = 0
      · subst hj0
        rw [if_pos rfl]
        have htail : TailOf (text.drop (i + 1)) d ((P1 idx).length + 1) := by
          have := ht.drop (i + 1)
          rw [Nat.zero_add] at this
          rw [hPl1]
          exact this
        rcases finish_inv h1 hidx1 hcs hd hpd1 (by rw [hPl1]; exact hget) hj htail with ⟨os', e1, e2, e3⟩ | ⟨os', P', e1, e2, e3, e4, e5, e6⟩
        · refine .inl ⟨os', by rw [e1]; rfl, e2, by omega⟩
        · refine .inr ⟨os', P', i, by rw [e1]; rfl, e2, by rw [e3, hmin], by rw [e4, hfull], by omega, by omega, hpos, .inr ?_⟩
          rw [← htake]; exact e5
      · rw [if_neg hj0]
        -- some id of `A` goes on this way
        obtain ⟨g1, ⟨w, g2, g3⟩, g4, g5⟩ := h1.child idx cs v.toNat j hidx1 hcs hj hj0
        have hw : w = v := UInt8.toNat_inj.mp g2
        subst hw
        rw [htake] at g3
        have some1 : 1 ≤ howMany A (d.take (i + 1)) := by
          have hlt : j.natAbs < os1.nodes.length := by have := h1.cap; omega
          cases hnode : os1.nodes[j.natAbs] with
          | leaf t' =>
            obtain ⟨ds, q1, q2, _⟩ := h1.leaf _ t' g1 (by rw [List.getElem?_eq_getElem hlt, hnode])
            rw [g3] at q2
            exact howMany_pos.mpr ⟨ds, q1, q2⟩
          | inner ch' =>
            have := h1.inner2 _ ch' (by omega) g1 (by rw [List.getElem?_eq_getElem hlt, hnode])
            rw [howMany_snoc, g3] at this
            split at this <;> omega
        by_cases hneg : j < 0
        · rw [if_pos hneg]
          obtain ⟨nodes, q1, q2, q3, ⟨w', q4, q5⟩, q6⟩ := flip_inv h1 hidx1 hcs hj hneg
          have hji : (-j).toNat = j.natAbs := by omega
          rw [q1, Res.bind_ok]
          have := ih (i + 1) { os1 with nodes := nodes } P1 (-j).toNat true (by omega) q2 q3 (by rw [hji]; exact g3) (fun _ => q6) (fun hh => by cases hh) (fun _ => some1)
          rcases this with ⟨os', r1, r2, r3⟩ | ⟨os', P', k, r1, r2, r3, r4, r5, r6⟩
          · dsimp only at r3
            refine .inl ⟨os', r1, r2, ?_⟩
            rw [if_pos rfl] at r3
            omega
          · dsimp only at r3 r4 r5
            rw [if_pos rfl] at r5
            exact .inr ⟨os', P', k, r1, r2, by rw [r3, hmin], by rw [r4, hfull], by omega, r6⟩
        · rw [if_neg hneg]
          have hji : j.toNat = j.natAbs := by omega
          have hkind : (∃ ch, os1.nodes[j.toNat]? = some (.inner ch)) ∨ i + 1 = 40 := by
            rw [hji]
            rcases g5 (by omega) with g | g | g
            · exact .inl g
            · right
              rw [g3, List.length_take] at g
              omega
            · omega
          have := ih (i + 1) os1 P1 j.toNat false (by omega) h1 (by omega) (by rw [hji]; exact g3) (fun hh => by cases hh) (fun _ => hkind) (fun _ => some1)
          rcases this with ⟨os', r1, r2, r3⟩ | ⟨os', P', k, r1, r2, r3, r4, r5, r6⟩
          · refine .inl ⟨os', r1, r2, ?_⟩
            simp only [Bool.false_eq_true, if_false] at r3
            omega
          · simp only [Bool.false_eq_true, if_false] at r5
            exact .inr ⟨os', P', k, r1, r2, by rw [r3, hmin], by rw [r4, hfull], by omega, r6⟩
    cases isLeaf with
    | false =>
      have hin : ∃ ch, os.nodes[idx]? = some (.inner ch) := by
        rcases hinner rfl with h' | h'
        · exact h'
        · omega
      have := rest os P h hidx hin hP rfl rfl rfl
      simpa using this
    | true =>
      obtain ⟨t, hn⟩ := hleaf rfl
      replace h : Inv A (A ++ [d]) os P idx := h
      have hidx0 : idx ≠ 0 := by
        rintro rfl
        obtain ⟨ch', hch'⟩ := h.rootInner
        rw [hch'] at hn
        cases hn
      have hi0 : 0 < i := by
        rcases Nat.eq_zero_or_pos i with h0 | h0
        · subst h0
          have : P idx = P 0 := by rw [hP, h.root]; rfl
          exact absurd (h.inj idx 0 hidx h.pos this) hidx0
        · exact h0
      have hB : 2 ≤ howMany (A ++ [d]) (P idx) := by
        rw [howMany_snoc, if_pos hpd, hP]
        have := hpos hi0
        omega
      rcases split_inv h hidx hn (by omega) hB with ⟨os', e1, e2, e3⟩ | ⟨os1, P1, e1, e2, e3, e4, e5, e6, e7, e8⟩
      · refine .inl ⟨os', ?_, e2, ?_⟩
        · simp only [if_true, e1, Res.bind_ok]
        · rw [if_pos rfl]; omega
      · have := rest os1 P1 e2 e3 e4 (by rw [e5, hP]) e6 e7 (by rw [e8, if_pos rfl])
        simp only [if_true, e1, Res.bind_ok]
        simpa using this

/-- a shortener to which the ids `added` were added, none refused -/
inductive Run (min : Nat) : List (List UInt8) → Shorten → Prop
  | start : Run min [] (new min)
  | step {A os t d os' r} : Run min A os → IdText t d → add os t = .ok (os', r) → 0 ≤ r → Run min (A ++ [d]) os'

/-- what holds of it -/
structure State (min : Nat) (A : List (List UInt8)) (os : Shorten) : Prop where
  inv : ∃ P, Inv A A os P 0
  full : os.full = false
  room : os.count ≤ 1 + 40 * A.length
  low : min ≤ os.minLength
  one : A ≠ [] → 1 ≤ os.minLength
  identifies : ∀ p, 2 ≤ howMany A p → p.length + 1 ≤ os.minLength
  least : os.minLength = min ∨ os.minLength = 1 ∨ ∃ p, p.length + 1 = os.minLength ∧ 2 ≤ howMany A p

theorem digits_of {t : Bytes} {d : List UInt8} (h : IdText t d) : (d.length = 40 ∧ ∀ v ∈ d, v < 16) ∧ TailOf t d 0 := by
  obtain ⟨hl, hm⟩ := h
  have key : ∀ (t : Bytes) (d : List UInt8), t.mapM hexVal = some d → (∀ v ∈ d, v < 16) ∧ ∀ (i : Nat) v, d[i]? = some v → ∃ c, t[i]? = some c ∧ hexVal c = some v := by
    intro t
    induction t with
    | nil =>
      intro d hd
      cases hd
      exact ⟨by simp, by simp⟩
    | cons x xs ih =>
      intro d hd
      rw [List.mapM_cons] at hd
      cases hx : hexVal x with
      | none => rw [hx] at hd; cases hd
      | some y =>
        cases hxs : xs.mapM hexVal with
        | none => rw [hx, hxs] at hd; cases hd
        | some ys =>
          rw [hx, hxs] at hd
          cases hd
          obtain ⟨h1, h2⟩ := ih ys hxs
          refine ⟨?_, ?_⟩
          · intro v hv
            rcases List.mem_cons.mp hv with rfl | hv
            · exact Oid.hexVal_lt x _ hx
            · exact h1 v hv
          · intro i v hv
            cases i with
            | zero => cases hv; exact ⟨x, rfl, hx⟩
            | succ i => exact h2 i v hv
  obtain ⟨h1, h2⟩ := key _ _ hm
  refine ⟨⟨hl, h1⟩, fun i v hv => ?_⟩
  rw [Nat.zero_add] at hv
  obtain ⟨c, h3, h4⟩ := h2 i v hv
  have hi : i < 40 := by
    rw [← hl]
    refine Nat.lt_of_not_le fun hc => ?_
    rw [List.getElem?_eq_none hc] at hv
    cases hv
  rw [List.getElem?_take, if_pos hi] at h3
  exact ⟨c, h3, by rw [Oid.fromhex_eq, h4]⟩

theorem start_state (min : Nat) : State min [] (new min) := by
  refine ⟨⟨fun _ => [], ?_⟩, rfl, by simp [new], Nat.le_refl _, fun h => absurd rfl h, fun p hp => ?_, .inl rfl⟩
  · constructor
    case cap => simp [new]
    case pos => simp [new]
    case lim => simp [new, SHRT_MAX]
    case zeros =>
      intro k _ h2
      simp only [new, List.length_replicate] at h2
      simp only [new, List.getElem?_replicate, if_pos h2]
    case ids => simp
    case root => rfl
    case rootInner => exact ⟨_, rfl⟩
    case inj => intro i j hi hj _; simp only [new] at hi hj; omega
    case depth => simp
    case innerDepth =>
      intro k ch hk hch
      have : k = 0 := by simp only [new] at hk; omega
      subst this
      simp [new, zero] at hch
      subst hch
      simp
    case child =>
      intro k ch c j hk hch hj hne
      have : k = 0 := by simp only [new] at hk; omega
      subst this
      have e : ch = List.replicate 16 0 := by
        have h2 : some zero = some (Node.inner ch) := hch
        cases h2
        rfl
      subst e
      exact absurd (zero_get c j hj) hne
    case leaf =>
      intro k t hk hleaf
      have : k = 0 := by simp only [new] at hk; omega
      subst this
      have h2 : some zero = some (Node.leaf t) := hleaf
      cases h2
    case inner2 => intro k ch h0 hk; simp only [new] at hk; omega
    case reach => intro k ch ds _ _ hds; cases hds
    case pre => intro k n _ hn; simp at hn
  · simp [howMany] at hp

theorem add_state {min : Nat} {A : List (List UInt8)} {os : Shorten} {t : Bytes} {d : List UInt8} (h : State min A os) (ht : IdText t d) :
    (∃ os', add os t = .ok (os', -1) ∧ os'.full = true ∧ SHRT_MAX ≤ os.count + 40) ∨
    ∃ os', add os t = .ok (os', (os'.minLength : Int)) ∧ State min (A ++ [d]) os' := by
  obtain ⟨P, hinv⟩ := h.inv
  obtain ⟨hd, htail⟩ := digits_of ht
  unfold add
  rw [h.full]
  simp only [Bool.false_eq_true, if_false]
  rcases addLoop_inv hd htail 40 0 os P 0 false rfl (hinv.more d) hinv.pos (by rw [hinv.root]; rfl) (fun hh => by cases hh) (fun _ => .inl hinv.rootInner)
      (fun hh => by omega) with ⟨os', e1, e2, e3⟩ | ⟨os', P', k, e1, e2, e3, e4, e5, e6, e7, e8⟩
  · refine .inl ⟨os', ?_, e2, by simpa using e3⟩
    rw [show HEXSIZE = 40 from rfl, e1, Res.bind_ok]
  · right
    rw [show HEXSIZE = 40 from rfl, e1, Res.bind_ok]
    dsimp only
    simp only [Bool.false_eq_true, if_false, Nat.add_zero] at e5
    refine ⟨_, rfl, ?_⟩
    -- the length
    have hlen : (if os'.minLength < k + 1 then { os' with minLength := k + 1 } else os').minLength = max os.minLength (k + 1) := by
      split
      · dsimp only; omega
      · omega
    have hcount : (if os'.minLength < k + 1 then { os' with minLength := k + 1 } else os').count = os'.count := by split <;> rfl
    have hfull : (if os'.minLength < k + 1 then { os' with minLength := k + 1 } else os').full = os'.full := by split <;> rfl
    have hinv' : Inv (A ++ [d]) (A ++ [d]) (if os'.minLength < k + 1 then { os' with minLength := k + 1 } else os') P' 0 := by
      split
      · exact { e2 with }
      · exact e2
    refine ⟨⟨P', hinv'⟩, by rw [hfull, e4, h.full], ?_, by rw [hlen]; have := h.low; omega, fun _ => by rw [hlen]; omega, fun p hp => ?_, ?_⟩
    · rw [hcount, List.length_append]
      have := h.room
      simp
      omega
    · rw [hlen]
      rw [howMany_snoc] at hp
      by_cases hpd : p <+: d
      · rw [if_pos hpd] at hp
        by_cases hle : p.length ≤ k
        · omega
        · rcases e8 with e8 | e8
          · have := hpd.length_le
            omega
          · have hpre : d.take (k + 1) <+: p := List.prefix_of_prefix_length_le (List.take_prefix _ _) hpd (by rw [List.length_take]; omega)
            have := howMany_mono (A := A) hpre
            omega
      · rw [if_neg hpd] at hp
        have := h.identifies p hp
        omega
    · rw [hlen]
      by_cases hgt : os.minLength < k + 1
      · by_cases hk0 : k = 0
        · subst hk0
          right; left; omega
        · right; right
          refine ⟨d.take k, ?_, ?_⟩
          · rw [List.length_take]; omega
          · rw [howMany_snoc, if_pos (List.take_prefix _ _)]
            have := e7 (by omega)
            omega
      · have hm : max os.minLength (k + 1) = os.minLength := by omega
        rw [hm]
        rcases h.least with h1 | h1 | ⟨p, h1, h2⟩
        · exact .inl h1
        · exact .inr (.inl h1)
        · refine .inr (.inr ⟨p, h1, ?_⟩)
          rw [howMany_snoc]
          omega

theorem run_state {min : Nat} {A : List (List UInt8)} {os : Shorten} (h : Run min A os) : State min A os := by
  induction h with
  | start => exact start_state min
  | step _ ht hadd hr ih =>
    rcases add_state ih ht with ⟨os'', e1, _, _⟩ | ⟨os'', e1, e2⟩
    · rw [hadd] at e1
      have := Prod.mk.inj (Res.ok.inj e1)
      omega
    · rw [hadd] at e1
      have := (Prod.mk.inj (Res.ok.inj e1)).1
      rw [this]
      exact e2

theorem State.leastLen {min : Nat} {A : List (List UInt8)} {os : Shorten} (h : State min A os) (hA : A ≠ []) : Least min A os.minLength := by
  refine ⟨h.low, h.one hA, fun p hp => ?_, fun k h1 h2 h3 hid => ?_⟩
  · by_contra hc
    have := h.identifies p (by omega)
    omega
  · rcases h.least with h4 | h4 | ⟨p, h4, h5⟩
    · omega
    · omega
    · have := hid (p.take k) (by rw [List.length_take]; omega)
      have := howMany_mono (A := A) (List.take_prefix k p)
      omega

/-- **C04.** Adding the text of an id returns the least length, not below the one the shortener was made with, at which no two of the ids added so far have
the same first digits; or it is refused because the set is full, which does not happen for the first 819. -/
theorem C04_shortest {min : Nat} {A : List (List UInt8)} {os : Shorten} (h : Run min A os) {t : Bytes} {d : List UInt8} (ht : IdText t d) :
    (∃ os' l, add os t = .ok (os', (l : Nat)) ∧ Least min (A ++ [d]) l ∧ Run min (A ++ [d]) os') ∨
    (819 ≤ A.length ∧ ∃ os', add os t = .ok (os', -1) ∧ os'.full = true) := by
  have hs := run_state h
  rcases add_state hs ht with ⟨os', e1, e2, e3⟩ | ⟨os', e1, e2⟩
  · right
    refine ⟨?_, os', e1, e2⟩
    have := hs.room
    unfold SHRT_MAX at e3
    omega
  · exact .inl ⟨os', os'.minLength, e1, e2.leastLen (by simp), .step h ht e1 (by omega)⟩

/-- **C04 (unique).** With the length that is returned, different ids have different abbreviations. -/
theorem C04_distinct {min : Nat} {A : List (List UInt8)} {l : Nat} (h : Least min A l) {d e : List UInt8} (hd : d ∈ A) (he : e ∈ A) (hne : d ≠ e) (hl : d.length = 40 ∧ e.length = 40) :
    d.take l ≠ e.take l := by
  intro heq
  by_cases hl40 : l ≤ 40
  · have h1 := h.2.2.1 (d.take l) (by rw [List.length_take]; omega)
    have h2 : howMany A (d.take l) = 1 := Nat.le_antisymm h1 (howMany_pos.mpr ⟨d, hd, List.take_prefix _ _⟩)
    exact hne (howMany_one h2 hd he (List.take_prefix _ _) (by rw [heq]; exact List.take_prefix _ _))
  · rw [List.take_of_length_le (by omega), List.take_of_length_le (by omega)] at heq
    exact hne heq

/-- **C04 (full).** A full set refuses every text and is not changed. -/
theorem C04_full (os : Shorten) (t : Bytes) (h : os.full = true) : add os t = .ok (os, -1) := by
  unfold add
  rw [if_pos h]

/-- **C04 (twice).** An id that is added twice makes the length 41, more than an id has digits. -/
theorem C04_twice {min : Nat} {A : List (List UInt8)} {d : List UInt8} {l : Nat} (hd : d.length = 40) (hA : d ∈ A) (h : Least min (A ++ [d]) l) : 41 ≤ l := by
  by_contra hc
  have := h.2.2.1 (d.take l) (by rw [List.length_take]; omega)
  rw [howMany_snoc, if_pos (List.take_prefix _ _)] at this
  have := howMany_pos.mpr ⟨d, hA, List.take_prefix l d⟩
  omega

/-- **C04 (grows).** The length that is returned never decreases as ids are added. -/
theorem C04_grows {min : Nat} {A : List (List UInt8)} {d : List UInt8} {l l' : Nat} (h : Least min A l) (h' : Least min (A ++ [d]) l') : l ≤ l' := by
  by_contra hc
  refine h.2.2.2 l' h'.1 h'.2.1 (by omega) fun p hp => ?_
  have := h'.2.2.1 p hp
  rw [howMany_snoc] at this
  omega

/-! Three ids: the first two have the first three digits in common. -/

def textA : Bytes := List.replicate 40 c!"a"
def textB : Bytes := b!"aaab" ++ List.replicate 36 c!"0"
def textC : Bytes := b!"F00" ++ List.replicate 37 c!"9" ++ b!" tail"

/-- what adding texts one after the other returns -/
def addAll : Shorten → List Bytes → Res (List Int)
  | _, [] => .ok []
  | os, t :: ts => add os t >>= fun r => addAll r.1 ts >>= fun rs => .ok (r.2 :: rs)

example : addAll (new 2) [textA, textB, textC] = .ok [2, 4, 4] := by decide +kernel
example : addAll (new 0) [textA, textB, textA] = .ok [1, 4, 41] := by decide +kernel

example : IdText textC (15 :: 0 :: 0 :: List.replicate 37 9) := ⟨by decide +kernel, by decide +kernel⟩

/-- the hypotheses of the theorems are met -/
example : ∃ os, Run 2 [List.replicate 40 10, [10, 10, 10, 11] ++ List.replicate 36 0] os := by
  have h0 : Run 2 [] (new 2) := .start
  rcases C04_shortest h0 (t := textA) (d := List.replicate 40 10) ⟨by decide +kernel, by decide +kernel⟩ with ⟨os1, l1, _, _, h1⟩ | ⟨h, _⟩
  · rcases C04_shortest h1 (t := textB) (d := [10, 10, 10, 11] ++ List.replicate 36 0) ⟨by decide +kernel, by decide +kernel⟩ with ⟨os2, l2, _, _, h2⟩ | ⟨h, _⟩
    · exact ⟨os2, h2⟩
    · simp at h
  · simp at h

/-- **C04 (invalid text).** A text that is not an id is refused, but only after the trie was changed: the set is damaged, and adding the text of an id after
it is undefined, because a pointer to a text is read as node numbers. -/
theorem C04_invalid_corrupts : ∃ os r, add (new 0) textA = .ok (os, 1) ∧ add os b!"ag" = .ok (r, -1) ∧ r ≠ os ∧ add r textB = .ub := by
  have h1 : ∃ os, add (new 0) textA = .ok (os, 1) ∧ ∃ r, add os b!"ag" = .ok (r, -1) ∧ r ≠ os ∧ add r textB = .ub := by
    refine ⟨_, rfl, _, rfl, by decide +kernel, by decide +kernel⟩
  obtain ⟨os, h1, r, h2, h3⟩ := h1
  exact ⟨os, r, h1, h2, h3⟩

/-- an invalid digit that is met where the trie branches does no harm -/
example : addAll (new 0) [textA, b!"gg", textB] = .ok [1, -1, 4] := by decide +kernel

end Verif.Shorten
