import Verif.PathValid.LemmasNtfs
/-! # C42: paths that could write into `.git` are refused -/
namespace Verif.PathValid
open Spec Utf8.Spec

/-! ### HFS+ -/

/-- The check for HFS+ finds every name HFS+ takes for `name`. -/
theorem C42_hfs_same (comp name : Bytes) (h : HfsSame comp name) : HfsLike comp name := by
  obtain ⟨vs, h1, h2, h3⟩ := h
  refine ⟨vs, [], fun v hv => h1 v hv, by simpa using h2, ?_, .inl rfl⟩
  generalize hw : vs.filter (fun v => decide (¬ Invisible v)) = ws at h3 ⊢
  clear hw h2 h1
  induction ws generalizing name with
  | nil => cases name <;> simp_all
  | cons v ws ih =>
    cases name with
    | nil => simp at h3
    | cons c cs =>
      rw [List.map_cons, List.map_cons, List.cons.injEq] at h3
      rw [List.map_cons, ih cs h3.2]
      congr 1
      have hc := c.toNat_lt
      have h4 := h3.1
      unfold lowByte low
      split at h4
      · have : (UInt8.ofNat v).toNat = v := by rw [UInt8.toNat_ofNat']; omega
        rw [this, if_pos (by assumption), h4]
        simp
      · rename_i hn
        subst h4
        rw [show UInt8.ofNat c.toNat = c by simp, if_neg hn]

theorem encode_ascii {v : Nat} (h : v < 128) : encode v = [UInt8.ofNat v] := by
  unfold encode
  rw [if_pos (by omega)]
  rfl

theorem scalar_ascii {v : Nat} (h : v < 128) : Good v := by
  unfold Good Scalar Nonchar
  omega

theorem not_invisible_ascii {v : Nat} (h : v < 128) : ¬ Invisible v := by
  unfold Invisible
  omega

theorem encode_high {v : Nat} (h : Good v) (h2 : ¬ v < 128) : ∃ c ∈ encode v, ¬ c.toNat < 128 := by
  obtain ⟨⟨h1, _⟩, _⟩ := h
  unfold encode
  rw [if_neg (by omega)]
  split
  · exact ⟨UInt8.ofNat (0xC0 + v / 64), by simp, by rw [UInt8.toNat_ofNat']; omega⟩
  · split
    · exact ⟨UInt8.ofNat (0xE0 + v / 4096), by simp, by rw [UInt8.toNat_ofNat']; omega⟩
    · exact ⟨UInt8.ofNat (0xF0 + v / 262144), by simp, by rw [UInt8.toNat_ofNat']; omega⟩

/-- On ASCII names the check for HFS+ is a comparison without case. -/
theorem C42_hfs_ascii (comp name : Bytes) (ha : ∀ c ∈ comp, c.toNat < 128) (h0 : 0 ∉ comp) (hn : name.map low = name) :
    HfsLike comp name ↔ SameName comp name := by
  constructor
  · rintro ⟨vs, rest, h1, h2, h3, h4⟩
    have small : ∀ v ∈ vs, v < 128 := by
      intro v hv
      by_cases h : v < 128
      · exact h
      obtain ⟨c, hc, hc2⟩ := encode_high (h1 v hv) h
      refine absurd (ha c ?_) hc2
      rw [h2]
      exact List.mem_append_left _ (List.mem_flatMap.mpr ⟨v, hv, hc⟩)
    have hr : rest = [] := by
      rcases h4 with h4 | ⟨v, t, hv, _, hv3, hv4⟩
      · exact h4
      exfalso
      by_cases h : v < 128
      · have : UInt8.ofNat v = 0 := (low_zero _).mp hv3
        apply h0
        rw [h2, hv4, encode_ascii h, this]
        simp
      · obtain ⟨c, hc, hc2⟩ := encode_high hv h
        refine absurd (ha c ?_) hc2
        rw [h2, hv4]
        simp [hc]
    subst hr
    rw [List.append_nil] at h2
    have hf : vs.filter (fun v => decide (¬ Invisible v)) = vs := by
      rw [List.filter_eq_self]
      intro v hv
      simpa using not_invisible_ascii (small v hv)
    rw [hf] at h3
    unfold SameName
    rw [hn, ← h3, h2]
    clear h2 h3 hf h4 ha h0 hn h1
    induction vs with
    | nil => rfl
    | cons v vs ih =>
      rw [List.flatMap_cons, List.map_append, ih (fun x hx => small x (List.mem_cons_of_mem _ hx)), encode_ascii (small v (by simp))]
      rfl
  · intro h
    refine ⟨comp.map (·.toNat), [], ?_, ?_, ?_, .inl rfl⟩
    · intro v hv
      obtain ⟨c, hc, rfl⟩ := List.mem_map.mp hv
      exact scalar_ascii (ha c hc)
    · rw [List.append_nil]
      clear h h0
      induction comp with
      | nil => rfl
      | cons c cs ih =>
        rw [List.map_cons, List.flatMap_cons, encode_ascii (ha c (by simp)), ← ih (fun x hx => ha x (List.mem_cons_of_mem _ hx))]
        simp
    · rw [List.filter_eq_self.mpr]
      · rw [List.map_map, ← hn, ← show comp.map low = name.map low from h]
        apply List.map_congr_left
        intro c _
        simp [lowByte]
      · intro v hv
        obtain ⟨c, hc, rfl⟩ := List.mem_map.mp hv
        simpa using not_invisible_ascii (ha c hc)

/-! ### a component -/

theorem d19 (c : UInt8) : ¬ (c < c!"1" ∨ c > c!"9") ↔ c!"1" ≤ c ∧ c ≤ c!"9" := by revert c; decide +kernel
theorem d19' (c : UInt8) (h : c!"1" ≤ c ∧ c ≤ c!"9") : low c = c ∧ c ≠ 0 ∧ c ≠ c!"/" := by revert h; revert c; decide +kernel

/-- how a device name may end -/
def DosEnds (rest : Bytes) : Prop := rest = [] ∨ rest.head? = some c!"." ∨ rest.head? = some c!":"

theorem dosEnd (u : Bytes) (s : Bytes) (k : Nat) (hs : u ≠ [] → peek s k = peek u 0) :
    (decide (k + u.length > k ∧ peek s k ≠ c!"." ∧ peek s k ≠ c!":") = false) ↔ DosEnds u := by
  unfold DosEnds
  cases u with
  | nil => simp
  | cons x u =>
    rw [hs (by simp), peek_zero_cons]
    simp only [decide_eq_false_iff_not, List.length_cons, List.head?_cons, Option.some.injEq, reduceCtorEq, false_or]
    constructor
    · intro h
      by_cases a : x = c!"."
      · exact .inl a
      · by_cases b : x = c!":"
        · exact .inr b
        · exact absurd ⟨by omega, a, b⟩ h
    · rintro (h | h) ⟨_, h1, h2⟩
      · exact h1 h
      · exact h2 h

theorem validDos_plain {comp : Bytes} {o : Option Bytes} (name : Bytes) (hl : name.length = 3) (h0 : 0 ∉ name) (h1 : c!"/" ∉ name) :
    validDos (comp ++ tail o) comp.length name false = false ↔ ∃ n rest, comp = n ++ rest ∧ DosEnds rest ∧ SameName n name := by
  have g := hit_iff (comp := comp) (o := o) name h0 h1
  unfold validDos
  simp only [Bool.false_eq_true, if_false, false_and]
  by_cases h : ∃ a u, comp = a ++ u ∧ SameName a name
  · obtain ⟨a, u, rfl, hs⟩ := h
    have hal : a.length = 3 := hs.length.trans hl
    have hc := (caseEq_iff (a ++ u ++ tail o) name h0).mpr ⟨a, u ++ tail o, by simp, hs⟩
    rw [if_neg (by rw [hc]; simp; omega)]
    have hlen : (a ++ u).length = 3 + u.length := by simp [hal]
    rw [hlen]
    have hp : u ≠ [] → peek (a ++ u ++ tail o) 3 = peek u 0 := by
      intro hu
      have := peek_append_ge a (u ++ tail o) 0
      rw [hal] at this
      rw [List.append_assoc, this]
      cases u with
      | nil => exact absurd rfl hu
      | cons x u => rfl
    rw [dosEnd u _ 3 hp]
    constructor
    · exact fun h => ⟨a, u, rfl, h, hs⟩
    · rintro ⟨b, v, h2, h3, h4⟩
      have : u = v := (List.append_inj h2 (by rw [hs.length, h4.length])).2
      rwa [this]
  · have : comp.length < 3 ∨ (!(caseEq (comp ++ tail o) name)) = true := by
      by_cases hc : comp.length < 3
      · exact .inl hc
      right
      have : ¬ (decide (comp.length ≥ name.length) && caseEq (comp ++ tail o) name) = true := fun hh => h (g.mp hh)
      rw [Bool.and_eq_true, decide_eq_true_eq, not_and] at this
      have := this (by omega)
      simpa using this
    rw [if_pos this]
    simp only [Bool.true_eq_false, false_iff]
    rintro ⟨n, r, h2, _, h3⟩
    exact h ⟨n, r, h2, h3⟩

theorem validDos_num {comp : Bytes} {o : Option Bytes} (name : Bytes) (hl : name.length = 3) (h0 : 0 ∉ name) (h1 : c!"/" ∉ name) :
    validDos (comp ++ tail o) comp.length name true = false ↔
      ∃ n rest, comp = n ++ rest ∧ DosEnds rest ∧ ∃ x, c!"1" ≤ x ∧ x ≤ c!"9" ∧ SameName n (name ++ [x]) := by
  unfold validDos
  simp only [if_true, true_and]
  by_cases h : ∃ a x u, comp = a ++ x :: u ∧ SameName a name ∧ c!"1" ≤ x ∧ x ≤ c!"9"
  · obtain ⟨a, x, u, rfl, hs, hx1, hx2⟩ := h
    have hal : a.length = 3 := hs.length.trans hl
    have hc := (caseEq_iff (a ++ x :: u ++ tail o) name h0).mpr ⟨a, x :: u ++ tail o, by simp, hs⟩
    rw [if_neg (by rw [hc]; simp; omega)]
    have hp3 : peek (a ++ x :: u ++ tail o) 3 = x := by
      have := peek_append_ge a (x :: u ++ tail o) 0
      rw [hal] at this
      rw [List.append_assoc, this]
      rfl
    rw [hp3, if_neg ((d19 x).mpr ⟨hx1, hx2⟩)]
    have hlen : (a ++ x :: u).length = 4 + u.length := by simp [hal]; omega
    rw [hlen]
    have hp : u ≠ [] → peek (a ++ x :: u ++ tail o) 4 = peek u 0 := by
      intro hu
      have := peek_append_ge a (x :: u ++ tail o) 1
      rw [hal] at this
      rw [List.append_assoc, this]
      cases u with
      | nil => exact absurd rfl hu
      | cons y u => rfl
    rw [dosEnd u _ 4 hp]
    constructor
    · refine fun h => ⟨a ++ [x], u, by simp, h, x, hx1, hx2, ?_⟩
      simp only [SameName, List.map_append, show a.map low = name.map low from hs]
    · rintro ⟨b, v, h2, h3, y, _, _, h4⟩
      have : u = v := (List.append_inj (show (a ++ [x]) ++ u = b ++ v by simpa using h2) (by rw [h4.length]; simp [hs.length])).2
      rwa [this]
  · have hn : ¬ ∃ n rest, comp = n ++ rest ∧ DosEnds rest ∧ ∃ x, c!"1" ≤ x ∧ x ≤ c!"9" ∧ SameName n (name ++ [x]) := by
      rintro ⟨n, r, rfl, _, x, hx1, hx2, hs⟩
      have hnl : n.length = 4 := by rw [hs.length]; simp [hl]
      refine h ⟨n.take 3, peek n 3, r, ?_, ?_, ?_⟩
      · rcases drop_cases n 3 with ⟨he, _⟩ | he
        · have := congrArg List.length he
          simp at this; omega
        · have h5 : n.drop 4 = [] := List.drop_eq_nil_of_le (by omega)
          rw [h5] at he
          have := List.take_append_drop 3 n
          rw [he] at this
          calc n ++ r = (n.take 3 ++ [peek n 3]) ++ r := by rw [this]
            _ = _ := by simp
      · have := congrArg (List.take 3) (show n.map low = (name ++ [x]).map low from hs)
        rw [← List.map_take, ← List.map_take, List.take_left' hl] at this
        exact this
      · have e := congrArg (fun l => peek l 3) (show n.map low = (name ++ [x]).map low from hs)
        have e1 : peek (n.map low) 3 = low (peek n 3) := by
          simp [peek, List.getD_eq_getElem?_getD, List.getElem?_map, hnl]
        have e2 : peek ((name ++ [x]).map low) 3 = low x := by
          simp [peek, List.getD_eq_getElem?_getD, hl]
        simp only [e1, e2] at e
        have : ∀ y, low y = low x → y = x := by
          have := (d19' x ⟨hx1, hx2⟩).1
          rw [this]
          have : ∀ x : UInt8, c!"1" ≤ x → x ≤ c!"9" → ∀ y, low y = x → y = x := by decide +kernel
          exact this x hx1 hx2
        rw [this _ e]
        exact ⟨hx1, hx2⟩
    simp only [hn, iff_false, Bool.not_eq_false]
    by_cases hA : comp.length < 4 ∨ (!(caseEq (comp ++ tail o) name)) = true
    · rw [if_pos hA]
    · rw [if_neg hA]
      by_cases hB : peek (comp ++ tail o) 3 < c!"1" ∨ peek (comp ++ tail o) 3 > c!"9"
      · rw [if_pos hB]
      · exfalso
        simp only [not_or, Bool.not_eq_true, Bool.not_eq_false'] at hA
        obtain ⟨a, t, h2, h3⟩ := (caseEq_iff _ _ h0).mp hA.2
        obtain ⟨u, h4, _⟩ := inside h2 (not_slash h3 h1)
        have hal : a.length = 3 := h3.length.trans hl
        subst h4
        cases u with
        | nil => simp at hA; omega
        | cons x u =>
          have hp3 : peek (a ++ x :: u ++ tail o) 3 = x := by
            have := peek_append_ge a (x :: u ++ tail o) 0
            rw [hal] at this
            rw [List.append_assoc, this]
            rfl
          rw [hp3] at hB
          have := (d19 x).mp hB
          exact h ⟨a, x, u, rfl, h3, this.1, this.2⟩

theorem sameName_low {a b c : Bytes} (h : b.map low = c.map low) : SameName a b ↔ SameName a c := by
  unfold SameName; rw [h]

theorem dos_iff {comp : Bytes} {o : Option Bytes} :
    (validDos (comp ++ tail o) comp.length b!"CON" false && validDos (comp ++ tail o) comp.length b!"PRN" false &&
      validDos (comp ++ tail o) comp.length b!"AUX" false && validDos (comp ++ tail o) comp.length b!"NUL" false &&
      validDos (comp ++ tail o) comp.length b!"COM" true && validDos (comp ++ tail o) comp.length b!"LPT" true) = true ↔ ¬ DosDevice comp := by
  have e : ∀ b : Bool, b = true ↔ ¬ b = false := by decide
  simp only [Bool.and_eq_true, e (validDos _ _ _ _)]
  rw [validDos_plain b!"CON" rfl (by decide) (by decide), validDos_plain b!"PRN" rfl (by decide) (by decide),
    validDos_plain b!"AUX" rfl (by decide) (by decide), validDos_plain b!"NUL" rfl (by decide) (by decide),
    validDos_num b!"COM" rfl (by decide) (by decide), validDos_num b!"LPT" rfl (by decide) (by decide)]
  have l1 := fun a => sameName_low (a := a) (b := b!"CON") (c := b!"con") (by decide +kernel)
  have l2 := fun a => sameName_low (a := a) (b := b!"PRN") (c := b!"prn") (by decide +kernel)
  have l3 := fun a => sameName_low (a := a) (b := b!"AUX") (c := b!"aux") (by decide +kernel)
  have l4 := fun a => sameName_low (a := a) (b := b!"NUL") (c := b!"nul") (by decide +kernel)
  have l5 := fun a x => sameName_low (a := a) (b := b!"COM" ++ [x]) (c := b!"com" ++ [x]) (by rw [List.map_append, List.map_append]; congr 1)
  have l6 := fun a x => sameName_low (a := a) (b := b!"LPT" ++ [x]) (c := b!"lpt" ++ [x]) (by rw [List.map_append, List.map_append]; congr 1)
  simp only [l1, l2, l3, l4, l5, l6]
  constructor
  · rintro ⟨⟨⟨⟨⟨h1, h2⟩, h3⟩, h4⟩, h5⟩, h6⟩ ⟨n, r, hc, he, h | h⟩
    · obtain ⟨d, hd, hs⟩ := h
      simp only [List.mem_cons, List.not_mem_nil, or_false] at hd
      rcases hd with rfl | rfl | rfl | rfl
      · exact h1 ⟨n, r, hc, he, hs⟩
      · exact h2 ⟨n, r, hc, he, hs⟩
      · exact h3 ⟨n, r, hc, he, hs⟩
      · exact h4 ⟨n, r, hc, he, hs⟩
    · obtain ⟨d, hd, x, hx1, hx2, hs⟩ := h
      simp only [List.mem_cons, List.not_mem_nil, or_false] at hd
      rcases hd with rfl | rfl
      · exact h5 ⟨n, r, hc, he, x, hx1, hx2, hs⟩
      · exact h6 ⟨n, r, hc, he, x, hx1, hx2, hs⟩
  · intro h
    refine ⟨⟨⟨⟨⟨?_, ?_⟩, ?_⟩, ?_⟩, ?_⟩, ?_⟩
    · rintro ⟨n, r, hc, he, hs⟩; exact h ⟨n, r, hc, he, .inl ⟨_, by simp, hs⟩⟩
    · rintro ⟨n, r, hc, he, hs⟩; exact h ⟨n, r, hc, he, .inl ⟨b!"prn", by simp, hs⟩⟩
    · rintro ⟨n, r, hc, he, hs⟩; exact h ⟨n, r, hc, he, .inl ⟨b!"aux", by simp, hs⟩⟩
    · rintro ⟨n, r, hc, he, hs⟩; exact h ⟨n, r, hc, he, .inl ⟨b!"nul", by simp, hs⟩⟩
    · rintro ⟨n, r, hc, he, x, hx1, hx2, hs⟩; exact h ⟨n, r, hc, he, .inr ⟨b!"com", by simp, x, hx1, hx2, hs⟩⟩
    · rintro ⟨n, r, hc, he, x, hx1, hx2, hs⟩; exact h ⟨n, r, hc, he, .inr ⟨b!"lpt", by simp, x, hx1, hx2, hs⟩⟩

/-- what `validate_component` checks -/
structure CompOK (f : Flags) (comp : Bytes) : Prop where
  empty : f.empty = true → comp ≠ []
  traversal : f.traversal = true → comp ≠ b!"." ∧ comp ≠ b!".."
  trailingDot : f.trailingDot = true → comp.getLast? ≠ some c!"."
  trailingSpace : f.trailingSpace = true → comp.getLast? ≠ some c!" "
  trailingColon : f.trailingColon = true → comp.getLast? ≠ some c!":"
  dos : f.dos = true → ¬ DosDevice comp

theorem not_dos_nil : ¬ DosDevice [] := by
  rintro ⟨n, r, h, _, h2 | h2⟩
  · have : n = [] := (List.append_eq_nil_iff.mp h.symm).1
    subst this
    obtain ⟨d, hd, hs⟩ := h2
    have := hs.length
    simp only [List.mem_cons, List.not_mem_nil, or_false] at hd
    rcases hd with rfl | rfl | rfl | rfl <;> simp at this
  · have : n = [] := (List.append_eq_nil_iff.mp h.symm).1
    subst this
    obtain ⟨d, hd, x, _, _, hs⟩ := h2
    have := hs.length
    simp at this

theorem validComponent_iff (f : Flags) (comp : Bytes) (o : Option Bytes) :
    validComponent f (comp ++ tail o) comp.length = true ↔ CompOK f comp := by
  unfold validComponent
  by_cases hc : comp.length = 0
  · rw [if_pos hc]
    have := List.length_eq_zero_iff.mp hc
    subst this
    constructor
    · intro h
      refine ⟨fun h2 => by simp [h2] at h, fun _ => by simp, fun _ => by simp, fun _ => by simp, fun _ => by simp, fun _ => not_dos_nil⟩
    · intro h
      cases he : f.empty
      · rfl
      · exact absurd rfl (h.empty he)
  · rw [if_neg hc]
    have hne : comp ≠ [] := fun h => hc (by simp [h])
    have e1 : (comp.length = 1 ∧ peek (comp ++ tail o) 0 = c!".") ↔ comp = b!"." := by
      constructor
      · rintro ⟨h1, h2⟩
        obtain ⟨a, rfl⟩ := List.length_eq_one_iff.mp h1
        simp [peek] at h2
        simp [h2]
      · rintro rfl; exact ⟨rfl, rfl⟩
    have e2 : (comp.length = 2 ∧ peek (comp ++ tail o) 0 = c!"." ∧ peek (comp ++ tail o) 1 = c!".") ↔ comp = b!".." := by
      constructor
      · rintro ⟨h1, h2, h3⟩
        match comp, h1, h2, h3 with
        | [a, b], _, h2, h3 =>
          simp [peek] at h2 h3
          simp [h2, h3]
      · rintro rfl; exact ⟨rfl, rfl, rfl⟩
    have e3 : ∀ x : UInt8, peek (comp ++ tail o) (comp.length - 1) = x ↔ comp.getLast? = some x := by
      intro x
      rw [peek_append_lt _ _ _ (by omega), List.getLast?_eq_getElem?]
      have hlt : comp.length - 1 < comp.length := by omega
      simp [peek, List.getD_eq_getElem?_getD, List.getElem?_eq_getElem hlt]
    simp only [e1, e2, e3]
    by_cases h1 : f.traversal = true ∧ comp = b!"."
    · rw [if_pos h1]
      simp only [Bool.false_eq_true, false_iff]
      exact fun h => (h.traversal h1.1).1 h1.2
    rw [if_neg h1]
    by_cases h2 : f.traversal = true ∧ comp = b!".."
    · rw [if_pos h2]
      simp only [Bool.false_eq_true, false_iff]
      exact fun h => (h.traversal h2.1).2 h2.2
    rw [if_neg h2]
    by_cases h3 : f.trailingDot = true ∧ comp.getLast? = some c!"."
    · rw [if_pos h3]
      simp only [Bool.false_eq_true, false_iff]
      exact fun h => h.trailingDot h3.1 h3.2
    rw [if_neg h3]
    by_cases h4 : f.trailingSpace = true ∧ comp.getLast? = some c!" "
    · rw [if_pos h4]
      simp only [Bool.false_eq_true, false_iff]
      exact fun h => h.trailingSpace h4.1 h4.2
    rw [if_neg h4]
    by_cases h5 : f.trailingColon = true ∧ comp.getLast? = some c!":"
    · rw [if_pos h5]
      simp only [Bool.false_eq_true, false_iff]
      exact fun h => h.trailingColon h5.1 h5.2
    rw [if_neg h5]
    have base : (f.dos = true → ¬ DosDevice comp) → CompOK f comp := fun hd =>
      ⟨fun _ => hne, fun h => ⟨fun h' => h1 ⟨h, h'⟩, fun h' => h2 ⟨h, h'⟩⟩, fun h h' => h3 ⟨h, h'⟩, fun h h' => h4 ⟨h, h'⟩, fun h h' => h5 ⟨h, h'⟩, hd⟩
    by_cases h6 : f.dos = true
    · rw [if_pos h6, dos_iff]
      exact ⟨fun h => base fun _ => h, fun h => h.dos h6⟩
    · rw [if_neg h6]
      simp only [true_iff]
      exact base fun h => absurd h h6

/-- a symbolic link that the check takes for `.gitmodules` on NTFS -/
def NtfsModules (comp : Bytes) (last : Bool) : Prop :=
  if last then NtfsFile b!"gitmodules" b!"gi7eba" comp else NtfsFileMid b!"gitmodules" b!"gi7eba" comp

/-- what `validate_repo_component` checks -/
structure RepoOK (f : Flags) (link : Bool) (comp : Bytes) (last : Bool) : Prop where
  hfs : f.hfs = true → ¬ HfsLike comp b!".git"
  hfsModules : f.hfs = true → link = true → ¬ HfsLike comp b!".gitmodules"
  ntfs : f.ntfs = true → ¬ NtfsDotGit comp
  ntfsModules : f.ntfs = true → link = true → ¬ NtfsModules comp last
  literal : f.hfs = false → f.ntfs = false → f.literal = true → ¬ SameName comp b!".git"
  literalModules : f.hfs = false → f.ntfs = false → f.literal = true → link = true →
    ∀ k, 5 ≤ k → k ≤ 11 → ¬ SameName comp ((b!".gitmodules").take k)

theorem ntfsModules_iff (comp : Bytes) (o : Option Bytes) :
    isGitfileNtfs (comp ++ tail o) comp.length .modules = true ↔ NtfsModules comp o.isNone := by
  unfold isGitfileNtfs NtfsModules
  rw [Bool.not_eq_true', validNtfsGeneric_iff (fileOK .modules)]
  unfold EndAt GitFile.name GitFile.hash
  dsimp only
  cases o with
  | none =>
    simp only [Option.isNone_none, if_true, NtfsFile]
    constructor
    · rintro ⟨n, u, h1, h2, h3 | ⟨_, h3⟩⟩
      · obtain ⟨d, t, hd, hu⟩ := h3
        exact ⟨n, u, h1, h2, d, hd, .inr ⟨t, hu⟩⟩
      · exact ⟨n, u, h1, h2, u, h3, .inl rfl⟩
    · rintro ⟨n, u, h1, h2, d, hd, h3 | ⟨t, h3⟩⟩
      · exact ⟨n, u, h1, h2, .inr ⟨trivial, h3 ▸ hd⟩⟩
      · exact ⟨n, u, h1, h2, .inl ⟨d, t, hd, h3⟩⟩
  | some r =>
    simp only [Option.isNone_some, NtfsFileMid, Bool.false_eq_true, if_false]
    constructor
    · rintro ⟨n, u, h1, h2, h3 | ⟨h3, _⟩⟩
      · exact ⟨n, u, h1, h2, h3⟩
      · simp at h3
    · rintro ⟨n, u, h1, h2, h3⟩
      exact ⟨n, u, h1, h2, .inl h3⟩

theorem commonPrefix_le (s p : Bytes) (n : Nat) : commonPrefix s p n ≤ n := by
  induction n generalizing s p with
  | zero => simp [commonPrefix]
  | succ n ih =>
    unfold commonPrefix
    split
    · have := ih (s.drop 1) (p.drop 1); omega
    · omega

theorem commonPrefix_iff (comp p t : Bytes) (h0 : 0 ∉ comp) :
    commonPrefix (comp ++ t) p comp.length = comp.length ↔ (comp.length ≤ p.length ∧ SameName comp (p.take comp.length)) := by
  induction comp generalizing p with
  | nil => simp [commonPrefix, SameName]
  | cons c cs ih =>
    have hc : c ≠ 0 := fun h => h0 (by simp [h])
    have h0' : 0 ∉ cs := fun h => h0 (List.mem_cons_of_mem _ h)
    rw [List.length_cons, commonPrefix]
    simp only [List.cons_append, peek_zero_cons, List.drop_succ_cons, List.drop_zero, lower_eq]
    cases p with
    | nil =>
      rw [peek_nil, if_neg (by rw [show low 0 = 0 from rfl, low_zero]; exact hc)]
      simp
    | cons x p =>
      rw [peek_zero_cons, List.drop_succ_cons, List.drop_zero]
      by_cases h : low c = low x
      · rw [if_pos h]
        have : (1 + commonPrefix (cs ++ t) p cs.length = cs.length + 1) ↔ commonPrefix (cs ++ t) p cs.length = cs.length := by omega
        rw [this, ih p h0']
        simp only [List.length_cons, List.take_succ_cons, SameName, List.map_cons, h, List.cons.injEq, true_and]
        rw [Nat.add_le_add_iff_right]
      · rw [if_neg h]
        constructor
        · intro h2; omega
        · rintro ⟨_, h2⟩
          simp only [List.take_succ_cons, SameName, List.map_cons, List.cons.injEq] at h2
          exact absurd h2.1 h

theorem sameGit_iff (a b c d : UInt8) : SameName [a, b, c, d] b!".git" ↔ a = c!"." ∧ (b = c!"g" ∨ b = c!"G") ∧ (c = c!"i" ∨ c = c!"I") ∧ (d = c!"t" ∨ d = c!"T") := by
  have ha : ∀ a, low a = low c!"." ↔ a = c!"." := by decide +kernel
  have hb : ∀ a, low a = low c!"g" ↔ (a = c!"g" ∨ a = c!"G") := by decide +kernel
  have hc : ∀ a, low a = low c!"i" ↔ (a = c!"i" ∨ a = c!"I") := by decide +kernel
  have hd : ∀ a, low a = low c!"t" ↔ (a = c!"t" ∨ a = c!"T") := by decide +kernel
  simp only [SameName, List.map_cons, List.map_nil, List.cons.injEq, and_true, ha, hb, hc, hd]

theorem validRepoComponent_iff (f : Flags) (link : Bool) (comp : Bytes) (o : Option Bytes) (h0 : 0 ∉ comp) :
    validRepoComponent f link (comp ++ tail o) comp.length = true ↔ RepoOK f link comp o.isNone := by
  have eH : (!(validHfs ((comp ++ tail o).take comp.length) b!"git")) = true ↔ HfsLike comp b!".git" := by
    rw [List.take_left, Bool.not_eq_true', validHfs_iff _ _ (by decide)]
  have eHM : isGitfileHfs (comp ++ tail o) comp.length .modules = true ↔ HfsLike comp b!".gitmodules" := by
    unfold isGitfileHfs
    rw [List.take_left, Bool.not_eq_true', validHfs_iff _ _ (fileOK .modules).nul]
    rfl
  have eN : (!(validNtfs (comp ++ tail o) comp.length)) = true ↔ NtfsDotGit comp := by
    rw [Bool.not_eq_true', validNtfs_iff]
  have eNM := ntfsModules_iff comp o
  unfold validRepoComponent
  by_cases h1 : f.hfs = true ∧ (!(validHfs ((comp ++ tail o).take comp.length) b!"git")) = true
  · rw [if_pos h1]
    simp only [Bool.false_eq_true, false_iff]
    exact fun h => h.hfs h1.1 (eH.mp h1.2)
  rw [if_neg h1]
  by_cases h2 : f.hfs = true ∧ link = true ∧ isGitfileHfs (comp ++ tail o) comp.length .modules = true
  · rw [if_pos h2]
    simp only [Bool.false_eq_true, false_iff]
    exact fun h => h.hfsModules h2.1 h2.2.1 (eHM.mp h2.2.2)
  rw [if_neg h2]
  by_cases h3 : f.ntfs = true ∧ (!(validNtfs (comp ++ tail o) comp.length)) = true
  · rw [if_pos h3]
    simp only [Bool.false_eq_true, false_iff]
    exact fun h => h.ntfs h3.1 (eN.mp h3.2)
  rw [if_neg h3]
  by_cases h4 : f.ntfs = true ∧ link = true ∧ isGitfileNtfs (comp ++ tail o) comp.length .modules = true
  · rw [if_pos h4]
    simp only [Bool.false_eq_true, false_iff]
    exact fun h => h.ntfsModules h4.1 h4.2.1 (eNM.mp h4.2.2)
  rw [if_neg h4]
  have base : (f.hfs = false → f.ntfs = false → f.literal = true → ¬ SameName comp b!".git") →
      (f.hfs = false → f.ntfs = false → f.literal = true → link = true → ∀ k, 5 ≤ k → k ≤ 11 → ¬ SameName comp ((b!".gitmodules").take k)) →
      RepoOK f link comp o.isNone := fun hl hm =>
    ⟨fun h h' => h1 ⟨h, eH.mpr h'⟩, fun h hk h' => h2 ⟨h, hk, eHM.mpr h'⟩, fun h h' => h3 ⟨h, eN.mpr h'⟩, fun h hk h' => h4 ⟨h, hk, eNM.mpr h'⟩, hl, hm⟩
  by_cases h5 : (!f.hfs) = true ∧ (!f.ntfs) = true ∧ f.literal = true
  · rw [if_pos h5]
    have h5' : f.hfs = false ∧ f.ntfs = false := ⟨by simpa using h5.1, by simpa using h5.2.1⟩
    match comp, h0 with
    | [], _ =>
      rw [if_neg (by simp)]
      simp only [true_iff]
      refine base (fun _ _ _ h => by simp [SameName] at h) (fun _ _ _ _ k hk1 hk2 h => ?_)
      have := h.length
      simp at this; omega
    | [a], _ =>
      rw [if_neg (by simp)]
      simp only [true_iff]
      refine base (fun _ _ _ h => by simp [SameName] at h) (fun _ _ _ _ k hk1 hk2 h => ?_)
      have := h.length
      simp at this; omega
    | [a, b], _ =>
      rw [if_neg (by simp)]
      simp only [true_iff]
      refine base (fun _ _ _ h => by simp [SameName] at h) (fun _ _ _ _ k hk1 hk2 h => ?_)
      have := h.length
      simp at this; omega
    | [a, b, c], _ =>
      rw [if_neg (by simp)]
      simp only [true_iff]
      refine base (fun _ _ _ h => by simp [SameName] at h) (fun _ _ _ _ k hk1 hk2 h => ?_)
      have := h.length
      simp at this; omega
    | a :: b :: c :: d :: rest, h0 =>
      have eG : ((a :: b :: c :: d :: rest).length ≥ 4 ∧ peek (a :: b :: c :: d :: rest ++ tail o) 0 = c!"." ∧
          (peek (a :: b :: c :: d :: rest ++ tail o) 1 = c!"g" ∨ peek (a :: b :: c :: d :: rest ++ tail o) 1 = c!"G") ∧
          (peek (a :: b :: c :: d :: rest ++ tail o) 2 = c!"i" ∨ peek (a :: b :: c :: d :: rest ++ tail o) 2 = c!"I") ∧
          (peek (a :: b :: c :: d :: rest ++ tail o) 3 = c!"t" ∨ peek (a :: b :: c :: d :: rest ++ tail o) 3 = c!"T")) ↔ SameName [a, b, c, d] b!".git" := by
        rw [sameGit_iff]
        simp [peek]
      by_cases h6 : SameName [a, b, c, d] b!".git"
      · rw [if_pos (eG.mpr h6)]
        by_cases h7 : (a :: b :: c :: d :: rest).length = 4
        · rw [if_pos h7]
          simp only [Bool.false_eq_true, false_iff]
          have : rest = [] := by
            cases rest with
            | nil => rfl
            | cons => simp at h7
          subst this
          exact fun h => h.literal h5'.1 h5'.2 h5.2.2 h6
        · rw [if_neg h7]
          have e := commonPrefix_iff (a :: b :: c :: d :: rest) b!".gitmodules" (tail o) h0
          by_cases h8 : link = true ∧ commonPrefix (a :: b :: c :: d :: rest ++ tail o) b!".gitmodules" (a :: b :: c :: d :: rest).length = (a :: b :: c :: d :: rest).length
          · rw [if_pos h8]
            simp only [Bool.false_eq_true, false_iff]
            intro h
            obtain ⟨g1, g2⟩ := e.mp h8.2
            exact h.literalModules h5'.1 h5'.2 h5.2.2 h8.1 _ (by simp at h7 ⊢; have := List.length_pos_iff.mpr h7; omega) g1 g2
          · rw [if_neg h8]
            simp only [true_iff]
            refine base (fun _ _ _ h => h7 (by have := h.length; simpa using this)) (fun _ _ _ hk k hk1 hk2 h => h8 ⟨hk, e.mpr ?_⟩)
            have := h.length
            rw [List.length_take] at this
            have hk3 : (b!".gitmodules").length = 11 := rfl
            have : (a :: b :: c :: d :: rest).length = k := by omega
            rw [this]
            exact ⟨by omega, h⟩
      · rw [if_neg (fun h => h6 (eG.mp h))]
        simp only [true_iff]
        have pre : ∀ k, SameName (a :: b :: c :: d :: rest) ((b!".gitmodules").take (4 + k)) → SameName [a, b, c, d] b!".git" := by
          intro k h
          have := congrArg (List.take 4) (show (a :: b :: c :: d :: rest).map low = _ from h)
          rw [← List.map_take, ← List.map_take, List.take_take] at this
          rw [show min 4 (4 + k) = 4 by omega] at this
          exact this
        refine base (fun _ _ _ h => h6 ?_) (fun _ _ _ hk k hk1 hk2 h => h6 (pre (k - 4) (by rw [show 4 + (k - 4) = k by omega]; exact h)))
        exact pre 0 h
  · rw [if_neg h5]
    simp only [true_iff]
    have : f.hfs = false → f.ntfs = false → f.literal = true → False := fun a b c => h5 ⟨by simp [a], by simp [b], c⟩
    exact base (fun a b c => (this a b c).elim) (fun a b c => (this a b c).elim)

/-! ### a path -/

theorem components_plain (a : Bytes) (h : c!"/" ∉ a) : components a = [(a, none)] := by
  induction a with
  | nil => rfl
  | cons c cs ih =>
    unfold components
    rw [if_neg (fun hc => h (by simp [hc])), ih (fun hm => h (List.mem_cons_of_mem _ hm))]

theorem components_slash (a r : Bytes) (h : c!"/" ∉ a) : components (a ++ c!"/" :: r) = (a, some r) :: components r := by
  induction a with
  | nil => simp [components]
  | cons c cs ih =>
    rw [List.cons_append, components, if_neg (fun hc => h (by simp [hc])), ih (fun hm => h (List.mem_cons_of_mem _ hm))]

/-- the components with the slashes between them are the path -/
theorem components_join (path : Bytes) : (components path).flatMap (fun p => p.1 ++ (if p.2.isNone then [] else [c!"/"])) = path := by
  induction path with
  | nil => rfl
  | cons c cs ih =>
    unfold components
    split
    · rename_i h
      rw [List.flatMap_cons, ih, h]
      rfl
    · cases hc : components cs with
      | nil =>
        rw [hc] at ih
        exfalso
        have : ∀ p : Bytes, components p ≠ [] := by
          intro p
          induction p with
          | nil => simp [components]
          | cons a p ih2 =>
            unfold components
            split
            · simp
            · cases h : components p with
              | nil => exact absurd h ih2
              | cons => simp
        exact this cs hc
      | cons p ps =>
        rw [hc] at ih
        simp only [List.flatMap_cons] at ih ⊢
        simp [← ih]

theorem components_mem {path comp : Bytes} {o : Option Bytes} (h : (comp, o) ∈ components path) : c!"/" ∉ comp ∧ ∀ x ∈ comp, x ∈ path := by
  induction path generalizing comp o with
  | nil => simp [components] at h; simp [h.1]
  | cons c cs ih =>
    unfold components at h
    split at h
    · rcases List.mem_cons.mp h with h | h
      · injection h with h1 h2
        subst h1
        simp
      · obtain ⟨a, b⟩ := ih h
        exact ⟨a, fun x hx => List.mem_cons_of_mem _ (b x hx)⟩
    · rename_i hc
      split at h
      · rename_i p q ps he
        rcases List.mem_cons.mp h with h | h
        · injection h with h1 h2
          subst h1
          obtain ⟨a, b⟩ := ih (comp := p) (o := q) (by rw [he]; simp)
          refine ⟨?_, ?_⟩
          · intro hm
            rcases List.mem_cons.mp hm with hm | hm
            · exact hc hm.symm
            · exact a hm
          · intro x hx
            rcases List.mem_cons.mp hx with hx | hx
            · simp [hx]
            · exact List.mem_cons_of_mem _ (b x hx)
        · obtain ⟨a, b⟩ := ih (comp := comp) (o := o) (by rw [he]; exact List.mem_cons_of_mem _ h)
          exact ⟨a, fun x hx => List.mem_cons_of_mem _ (b x hx)⟩
      · simp at h

/-- the characters `validate_char` lets pass -/
def CharOK (f : Flags) (c : UInt8) : Prop :=
  (f.backslash = true → c ≠ c!"\\") ∧ (f.slash = true → c ≠ c!"/") ∧ (f.ntChars = true → 32 ≤ c.toNat ∧ c ∉ b!"<>:\"|?*")

theorem validChar_iff (f : Flags) (c : UInt8) : validChar f c = true ↔ CharOK f c := by
  unfold validChar CharOK
  have e : c < 32 ↔ ¬ 32 ≤ c.toNat := by rw [UInt8.lt_iff_toNat_lt]; exact Nat.not_le.symm
  by_cases h1 : f.backslash = true ∧ c = c!"\\"
  · rw [if_pos h1]
    simp only [Bool.false_eq_true, false_iff]
    exact fun h => h.1 h1.1 h1.2
  rw [if_neg h1]
  by_cases h2 : f.slash = true ∧ c = c!"/"
  · rw [if_pos h2]
    simp only [Bool.false_eq_true, false_iff]
    exact fun h => h.2.1 h2.1 h2.2
  rw [if_neg h2]
  have b1 : f.backslash = true → c ≠ c!"\\" := fun a b => h1 ⟨a, b⟩
  have b2 : f.slash = true → c ≠ c!"/" := fun a b => h2 ⟨a, b⟩
  by_cases h3 : f.ntChars = true
  · rw [if_pos h3]
    by_cases h4 : c < 32
    · rw [if_pos h4]
      simp only [Bool.false_eq_true, false_iff]
      exact fun h => (e.mp h4) (h.2.2 h3).1
    · rw [if_neg h4]
      have h4' : 32 ≤ c.toNat := by
        by_cases hh : 32 ≤ c.toNat
        · exact hh
        · exact absurd (e.mpr hh) h4
      rw [Bool.not_eq_true', decide_eq_false_iff_not]
      exact ⟨fun h => ⟨b1, b2, fun _ => ⟨h4', h⟩⟩, fun h => (h.2.2 h3).2⟩
  · rw [if_neg h3]
    simp only [true_iff]
    exact ⟨b1, b2, fun h => absurd h h3⟩

theorem scan_iff (f : Flags) (link : Bool) (rest : Bytes) : ∀ (pre : Bytes), c!"/" ∉ pre → 0 ∉ pre →
    (scan f link (pre ++ rest) pre.length rest = true ↔
      (∀ c ∈ rest, c ≠ 0 ∧ CharOK f c) ∧ ∀ p ∈ components (pre ++ rest), CompOK f p.1 ∧ RepoOK f link p.1 p.2.isNone) := by
  induction rest with
  | nil =>
    intro pre hs h0
    rw [List.append_nil, components_plain pre hs, scan, Bool.and_eq_true]
    have e1 := validComponent_iff f pre none
    have e2 := validRepoComponent_iff f link pre none h0
    simp only [tail, List.append_nil] at e1 e2
    rw [e1, e2]
    simp
  | cons c rest ih =>
    intro pre hs h0
    unfold scan
    by_cases hc0 : c = 0
    · rw [if_pos hc0]
      simp only [Bool.false_eq_true, false_iff]
      exact fun h => (h.1 c (by simp)).1 hc0
    rw [if_neg hc0]
    by_cases hv : validChar f c = true
    · have hv' := (validChar_iff f c).mp hv
      rw [if_neg (by simp [hv])]
      by_cases hsl : c = c!"/"
      · subst hsl
        rw [if_neg (by simp), components_slash pre rest hs]
        have e1 := validComponent_iff f pre (some rest)
        have e2 := validRepoComponent_iff f link pre (some rest) h0
        simp only [tail] at e1 e2
        by_cases h1 : validComponent f (pre ++ c!"/" :: rest) pre.length = true
        · rw [if_neg (by simp [h1])]
          by_cases h2 : validRepoComponent f link (pre ++ c!"/" :: rest) pre.length = true
          · rw [if_neg (by simp [h2])]
            have := ih [] (by simp) (by simp)
            simp only [List.nil_append, List.length_nil] at this
            rw [this]
            constructor
            · rintro ⟨a, b⟩
              refine ⟨fun x hx => ?_, fun p hp => ?_⟩
              · rcases List.mem_cons.mp hx with rfl | hx
                · exact ⟨hc0, hv'⟩
                · exact a x hx
              · rcases List.mem_cons.mp hp with rfl | hp
                · exact ⟨e1.mp h1, e2.mp h2⟩
                · exact b p hp
            · rintro ⟨a, b⟩
              exact ⟨fun x hx => a x (List.mem_cons_of_mem _ hx), fun p hp => b p (List.mem_cons_of_mem _ hp)⟩
          · rw [if_pos (by simpa using h2)]
            simp only [Bool.false_eq_true, false_iff]
            exact fun h => h2 (e2.mpr (h.2 _ (List.mem_cons_self)).2)
        · rw [if_pos (by simpa using h1)]
          simp only [Bool.false_eq_true, false_iff]
          exact fun h => h1 (e1.mpr (h.2 _ (List.mem_cons_self)).1)
      · rw [if_pos hsl]
        have := ih (pre ++ [c]) (by simp [hs]; exact fun h => hsl h.symm) (by simp [h0]; exact fun h => hc0 h.symm)
        simp only [List.append_assoc, List.cons_append, List.nil_append, List.length_append, List.length_cons, List.length_nil, Nat.zero_add] at this
        rw [this]
        constructor
        · rintro ⟨a, b⟩
          refine ⟨fun x hx => ?_, b⟩
          rcases List.mem_cons.mp hx with rfl | hx
          · exact ⟨hc0, hv'⟩
          · exact a x hx
        · rintro ⟨a, b⟩
          exact ⟨fun x hx => a x (List.mem_cons_of_mem _ hx), b⟩
    · rw [if_pos (by simpa using hv)]
      simp only [Bool.false_eq_true, false_iff]
      exact fun h => hv ((validChar_iff f c).mpr (h.1 c (by simp)).2)

/-- `isValid` is exact: with the checks that `.git` needs switched on by the repository's settings, a path is accepted if and only if it
has no NUL, only allowed characters, and every component passes the checks asked for. -/
theorem C42_valid_iff (repo : Option Protect) (path : Bytes) (link : Bool) (f : Flags) (hf : f.dotGit = true) :
    isValid repo path link f = true ↔
      (∀ c ∈ path, c ≠ 0 ∧ CharOK f c) ∧
      ∀ p ∈ components path, CompOK f p.1 ∧ RepoOK (dotgitFlags repo f) link p.1 p.2.isNone := by
  unfold isValid
  rw [if_pos hf]
  have hl : (dotgitFlags repo f).literal = true := by
    unfold dotgitFlags
    cases repo with
    | none => rfl
    | some p => dsimp only; split <;> split <;> rfl
  have hne : ¬ dotgitFlags repo f = {} := by
    intro h
    rw [h] at hl
    exact absurd hl (by decide)
  rw [if_neg hne]
  have := scan_iff (dotgitFlags repo f) link path [] (by simp) (by simp)
  simp only [List.nil_append, List.length_nil] at this
  rw [this]
  have same : (dotgitFlags repo f).backslash = f.backslash ∧ (dotgitFlags repo f).slash = f.slash ∧ (dotgitFlags repo f).ntChars = f.ntChars ∧
      (dotgitFlags repo f).empty = f.empty ∧ (dotgitFlags repo f).traversal = f.traversal ∧ (dotgitFlags repo f).trailingDot = f.trailingDot ∧
      (dotgitFlags repo f).trailingSpace = f.trailingSpace ∧ (dotgitFlags repo f).trailingColon = f.trailingColon ∧ (dotgitFlags repo f).dos = f.dos := by
    unfold dotgitFlags
    cases repo with
    | none => exact ⟨rfl, rfl, rfl, rfl, rfl, rfl, rfl, rfl, rfl⟩
    | some p => dsimp only; split <;> split <;> exact ⟨rfl, rfl, rfl, rfl, rfl, rfl, rfl, rfl, rfl⟩
  obtain ⟨s1, s2, s3, s4, s5, s6, s7, s8, s9⟩ := same
  have c1 : ∀ c, CharOK (dotgitFlags repo f) c ↔ CharOK f c := by intro c; unfold CharOK; rw [s1, s2, s3]
  have c2 : ∀ p, CompOK (dotgitFlags repo f) p ↔ CompOK f p := by
    intro p
    constructor
    · intro h; exact ⟨s4 ▸ h.1, s5 ▸ h.2, s6 ▸ h.3, s7 ▸ h.4, s8 ▸ h.5, s9 ▸ h.6⟩
    · intro h; exact ⟨s4 ▸ h.1, s5 ▸ h.2, s6 ▸ h.3, s7 ▸ h.4, s8 ▸ h.5, s9 ▸ h.6⟩
  simp only [c1, c2]

/-- the settings under which names NTFS or HFS+ would take for another one are refused -/
def ProtectsNtfs : Option Protect → Prop
  | none => True
  | some p => p.ntfs = some true
def ProtectsHfs : Option Protect → Prop
  | none => False
  | some p => p.hfs = some true

theorem flags_ntfs (repo : Option Protect) (f : Flags) (hf : f.ntfs = false) : (dotgitFlags repo f).ntfs = true ↔ ProtectsNtfs repo := by
  unfold dotgitFlags ProtectsNtfs
  cases repo with
  | none => simp
  | some p =>
    dsimp only
    by_cases h : p.ntfs = some true
    · rw [if_pos h]; simp [h]
    · rw [if_neg h]; split <;> simp [h, hf]
theorem flags_hfs (repo : Option Protect) (f : Flags) (hf : f.hfs = false) : (dotgitFlags repo f).hfs = true ↔ ProtectsHfs repo := by
  unfold dotgitFlags ProtectsHfs
  cases repo with
  | none => simp [hf]
  | some p =>
    dsimp only
    by_cases h : p.hfs = some true
    · rw [if_pos h]; split <;> simp [h]
    · rw [if_neg h]; split <;> simp [h, hf]
theorem flags_literal (repo : Option Protect) (f : Flags) : (dotgitFlags repo f).literal = true := by
  unfold dotgitFlags
  cases repo with
  | none => rfl
  | some p => dsimp only; split <;> split <;> rfl

/-- a name that is not `.git` for any of the file systems the repository is protected for -/
structure NotDotGit (repo : Option Protect) (comp : Bytes) : Prop where
  name : ¬ SameName comp b!".git"
  hfs : ProtectsHfs repo → ¬ HfsSame comp b!".git"
  ntfs : ProtectsNtfs repo → ¬ NtfsDotGit comp

theorem hfsLike_of_same {comp : Bytes} (h : SameName comp b!".git") : HfsLike comp b!".git" := by
  have hl : ∀ c : UInt8, c ∈ (b!".git").map low → c.toNat < 128 ∧ c ≠ 0 := by decide +kernel
  have hc : ∀ c : UInt8, (low c).toNat < 128 → c.toNat < 128 := by decide +kernel
  refine (C42_hfs_ascii comp b!".git" ?_ ?_ (by decide +kernel)).mpr h
  · intro c hm
    apply hc
    exact (hl _ (by rw [← show comp.map low = _ from h]; exact List.mem_map_of_mem hm)).1
  · intro hm
    exact (hl 0 (by rw [← show comp.map low = _ from h]; exact List.mem_map.mpr ⟨0, hm, rfl⟩)).2 rfl

theorem notDotGit_of {repo : Option Protect} {f : Flags} {link : Bool} {comp : Bytes} {last : Bool} (h1 : f.hfs = false) (h2 : f.ntfs = false)
    (h : RepoOK (dotgitFlags repo f) link comp last) : NotDotGit repo comp := by
  refine ⟨fun hs => ?_, fun hp hh => h.hfs ((flags_hfs repo f h1).mpr hp) (C42_hfs_same _ _ hh), fun hp => h.ntfs ((flags_ntfs repo f h2).mpr hp)⟩
  by_cases a : (dotgitFlags repo f).hfs = true
  · exact h.hfs a (hfsLike_of_same hs)
  by_cases b : (dotgitFlags repo f).ntfs = true
  · exact h.ntfs b ⟨comp, [], by simp, .inl hs, .inr (.inr (by simp [Dropped]))⟩
  · exact h.literal (by simpa using a) (by simpa using b) (flags_literal repo f) hs

/-- A path accepted for the work directory has no NUL and no component that is empty, `.`, `..` or `.git` in any letter case, nor one that
NTFS or HFS+ would take for `.git` when the repository is protected for them. -/
theorem C42_checkout (repo : Option Protect) (path : Bytes) (link : Bool) (h : isValid repo path link workdirDefaults = true) :
    0 ∉ path ∧ ∀ p ∈ components path, p.1 ≠ [] ∧ p.1 ≠ b!"." ∧ p.1 ≠ b!".." ∧ NotDotGit repo p.1 := by
  obtain ⟨h1, h2⟩ := (C42_valid_iff repo path link workdirDefaults rfl).mp h
  refine ⟨fun h0 => (h1 0 h0).1 rfl, fun p hp => ?_⟩
  obtain ⟨a, b⟩ := h2 p hp
  exact ⟨a.empty rfl, (a.traversal rfl).1, (a.traversal rfl).2, notDotGit_of rfl rfl b⟩

/-- The same for a path accepted for the index, but empty components are let through (`C42_index_empty`). -/
theorem C42_index (repo : Option Protect) (path : Bytes) (link : Bool) (h : isValid repo path link indexDefaults = true) :
    0 ∉ path ∧ ∀ p ∈ components path, p.1 ≠ b!"." ∧ p.1 ≠ b!".." ∧ NotDotGit repo p.1 := by
  obtain ⟨h1, h2⟩ := (C42_valid_iff repo path link indexDefaults rfl).mp h
  refine ⟨fun h0 => (h1 0 h0).1 rfl, fun p hp => ?_⟩
  obtain ⟨a, b⟩ := h2 p hp
  exact ⟨(a.traversal rfl).1, (a.traversal rfl).2, notDotGit_of rfl rfl b⟩

/-- A name accepted for a tree entry is one component that is not empty. -/
theorem C42_tree (repo : Option Protect) (name : Bytes) (h : validEntryName repo name = true) :
    name ≠ [] ∧ 0 ∉ name ∧ c!"/" ∉ name ∧ name ≠ b!"." ∧ name ≠ b!".." ∧ NotDotGit repo name := by
  unfold validEntryName at h
  rw [Bool.and_eq_true, decide_eq_true_eq] at h
  obtain ⟨h1, h2⟩ := (C42_valid_iff repo name false treeEntryFlags rfl).mp h.2
  have hs : c!"/" ∉ name := fun hm => (h1 _ hm).2.2.1 rfl rfl
  obtain ⟨a, b⟩ := h2 (name, none) (by rw [components_plain name hs]; simp)
  exact ⟨h.1, fun h0 => (h1 0 h0).1 rfl, hs, (a.traversal rfl).1, (a.traversal rfl).2, notDotGit_of rfl rfl b⟩

/-- A symbolic link is refused under a name that a protected file system takes for `.gitmodules`. -/
theorem C42_symlink (repo : Option Protect) (path : Bytes) (f : Flags) (hf : f.dotGit = true) (h : isValid repo path true f = true) :
    ∀ p ∈ components path,
      (ProtectsHfs repo → f.hfs = false → ¬ HfsSame p.1 b!".gitmodules") ∧
      (ProtectsNtfs repo → f.ntfs = false → p.2 = none → ¬ NtfsFile b!"gitmodules" b!"gi7eba" p.1) ∧
      (¬ ProtectsHfs repo → ¬ ProtectsNtfs repo → f.hfs = false → f.ntfs = false → ¬ SameName p.1 b!".gitmodules") := by
  intro p hp
  obtain ⟨_, h2⟩ := (C42_valid_iff repo path true f hf).mp h
  obtain ⟨_, b⟩ := h2 p hp
  refine ⟨fun a c hh => b.hfsModules ((flags_hfs repo f c).mpr a) rfl (C42_hfs_same _ _ hh), fun a c d hh => ?_, fun a c d e => ?_⟩
  · have := b.ntfsModules ((flags_ntfs repo f c).mpr a) rfl
    rw [d] at this
    exact this hh
  · refine b.literalModules ?_ ?_ (flags_literal repo f) rfl 11 (by omega) (by omega)
    · cases hh : (dotgitFlags repo f).hfs
      · rfl
      · exact absurd ((flags_hfs repo f d).mp hh) a
    · cases hh : (dotgitFlags repo f).ntfs
      · rfl
      · exact absurd ((flags_ntfs repo f e).mp hh) c

/-- Ordinary paths are accepted: no NUL, no tilde and no byte above 127, and no component that is empty or starts with a dot. -/
theorem C42_ordinary (repo : Option Protect) (path : Bytes) (link : Bool)
    (h : ∀ c ∈ path, c ≠ 0 ∧ c.toNat < 128 ∧ c ≠ c!"~") (hc : ∀ p ∈ components path, p.1 ≠ [] ∧ p.1.head? ≠ some c!".") :
    isValid repo path link workdirDefaults = true := by
  refine (C42_valid_iff repo path link workdirDefaults rfl).mpr ⟨fun c hm => ⟨(h c hm).1, fun h => absurd h (by decide), fun h => absurd h (by decide), fun h => absurd h (by decide)⟩, ?_⟩
  rintro ⟨comp, o⟩ hp
  obtain ⟨hne, hd⟩ := hc _ hp
  dsimp only at hne hd ⊢
  obtain ⟨hslash, hsub⟩ := components_mem hp
  have h0 : 0 ∉ comp := fun hm => (h 0 (hsub _ hm)).1 rfl
  have hasc : ∀ c ∈ comp, c.toNat < 128 := fun c hm => (h c (hsub _ hm)).2.1
  have htil : c!"~" ∉ comp := fun hm => (h _ (hsub _ hm)).2.2 rfl
  have ldot : ∀ c, low c = c!"." ↔ c = c!"." := by decide +kernel
  have nodot : ∀ n u r : Bytes, comp = n ++ u → ¬ SameName n (c!"." :: r) := by
    intro n u r hn hs
    cases n with
    | nil => simp [SameName] at hs
    | cons x n =>
      simp only [SameName, List.map_cons, List.cons.injEq] at hs
      have : x = c!"." := (ldot x).mp (hs.1.trans (by decide))
      rw [hn, this] at hd
      simp at hd
  have notil : ∀ n u r : Bytes, comp = n ++ u → c!"~" ∈ r → ¬ SameName n r := by
    intro n u r hn hr hs
    have : SameName r n := hs.symm
    exact htil (by rw [hn]; exact List.mem_append_left _ (this.mem low_tilde hr))
  have noForm : ∀ n u, comp = n ++ u → ¬ NtfsForm b!"gitmodules" b!"gi7eba" n := by
    rintro n u hn (hs | ⟨a, d, rfl, _⟩ | ⟨a, d, ds, rfl, _⟩)
    · exact nodot n u _ hn hs
    · exact htil (by rw [hn]; simp)
    · exact htil (by rw [hn]; simp)
  have hl : ∀ name : Bytes, (c!"." :: name).map low = c!"." :: name → ¬ HfsLike comp (c!"." :: name) := by
    intro name hn hh
    exact nodot comp [] name (by simp) ((C42_hfs_ascii comp _ hasc h0 hn).mp hh)
  refine ⟨⟨fun _ => hne, fun _ => ⟨?_, ?_⟩, fun h => absurd h (by decide), fun h => absurd h (by decide), fun h => absurd h (by decide), fun h => absurd h (by decide)⟩,
    ⟨fun _ => hl _ (by decide +kernel), fun _ _ => hl _ (by decide +kernel), fun _ => ?_, fun _ _ => ?_, fun _ _ _ => nodot comp [] _ (by simp), fun _ _ _ _ k hk _ hs => ?_⟩⟩
  · rintro rfl; simp at hd
  · rintro rfl; simp at hd
  · rintro ⟨n, u, hn, hs | hs, _⟩
    · exact nodot n u _ hn hs
    · exact notil n u _ hn (by decide) hs
  · unfold NtfsModules
    split
    · rintro ⟨n, u, hn, hs, _⟩; exact noForm n u hn hs
    · rintro ⟨n, u, hn, hs, _⟩; exact noForm n u hn hs
  · obtain ⟨k, rfl⟩ : ∃ j, k = j + 1 := ⟨k - 1, by omega⟩
    rw [List.take_succ_cons] at hs
    exact nodot comp [] _ (by simp) hs

/-! ### examples -/

/-- The index defaults let an empty component through. -/
theorem C42_index_empty : isValid (some ⟨some true, some true⟩) b!"a//b" false indexDefaults = true ∧ isValid none b!"" false indexDefaults = true := by decide +kernel

/-- NTFS drops blanks and dots before a stream name too, the check does not: `.git :x`, and `.git .\x`. -/
theorem C42_ntfs_blank_colon : isValid none b!".git :x/y" false workdirDefaults = true ∧ isValid none b!".git.\\config" false workdirDefaults = true := by decide +kernel

/-- The check for HFS+ compares the low byte of the code points only: `.git` followed by U+0100 and `.` U+0167 `it` are refused. -/
theorem C42_hfs_low_byte : isValid (some ⟨some true, none⟩) ([46, 103, 105, 116, 0xC4, 0x80] ++ b!"x") false workdirDefaults = false ∧
    isValid (some ⟨some true, none⟩) [46, 0xC5, 0xA7, 105, 116] false workdirDefaults = false := by decide +kernel

/-- Without protection a symbolic link is refused under every name from `.gitm` on that `.gitmodules` starts with. -/
theorem C42_literal_prefix : isValid (some ⟨none, none⟩) b!"a/.gitm" true workdirDefaults = false ∧ isValid (some ⟨none, none⟩) b!"a/.gitm" false workdirDefaults = true := by decide +kernel

/-- `.git` hidden from view: U+200C inside -/
example : isValid (some ⟨some true, none⟩) (b!"a/.g" ++ [0xE2, 0x80, 0x8C] ++ b!"IT/hooks") false workdirDefaults = false := by decide +kernel
example : HfsSame (b!".g" ++ [0xE2, 0x80, 0x8C] ++ b!"IT") b!".git" :=
  ⟨[46, 103, 0x200c, 73, 84], by simp [Scalar, Nonchar], by decide +kernel, by decide +kernel⟩
example : isValid (some ⟨some false, none⟩) (b!"a/.g" ++ [0xE2, 0x80, 0x8C] ++ b!"IT/hooks") false workdirDefaults = true := by decide +kernel
example : isValid none b!"sub/GIT~1/config" false workdirDefaults = false := by decide +kernel
example : isValid none b!".git. . /config" false indexDefaults = false := by decide +kernel
example : isValid none b!".gitignore" false indexDefaults = true := by decide +kernel
example : isValid none b!"a/GITMOD~3 ::$INDEX" true indexDefaults = false := by decide +kernel
example : isValid none b!"GI7EB~10" true indexDefaults = false := by decide +kernel
example : isValid none b!"src/a.c" true workdirDefaults = true := by decide +kernel
example : isValid none b!"lpt3.txt" true { workdirDefaults with dos := true } = false := by decide +kernel
example : isValid none b!"con/x" true { workdirDefaults with dos := true } = false := by decide +kernel
example : validEntryName none b!"a/b" = false := by decide +kernel
example : validEntryName (some ⟨none, none⟩) b!"README" = true := by decide +kernel
example : components b!"a//b" = [(b!"a", some b!"/b"), ([], some b!"b"), (b!"b", none)] := by decide +kernel

end Verif.PathValid
