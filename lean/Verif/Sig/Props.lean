import Verif.Sig.Model
import Verif.Sig.Spec
/-! # C12: signatures -/
namespace Verif.Sig
open Spec

theorem isCrud_iff : ∀ c : UInt8, isCrud c = true ↔ Crud c := by decide +kernel

theorem head?_append {t b : Bytes} (h : t ≠ []) : (t ++ b).head? = t.head? := by
  cases t with
  | nil => exact absurd rfl h
  | cons _ _ => rfl

theorem dropWhile_split (p : UInt8 → Bool) (s : Bytes) :
    s = s.takeWhile p ++ s.dropWhile p ∧ (∀ c ∈ s.takeWhile p, p c = true) ∧ (∀ c, (s.dropWhile p).head? = some c → p c = false) := by
  refine ⟨List.takeWhile_append_dropWhile.symm, fun c hc => ?_, fun c hc => ?_⟩
  · induction s with
    | nil => simp at hc
    | cons x xs ih =>
      rw [List.takeWhile_cons] at hc
      split at hc
      · rename_i hx
        rcases List.mem_cons.mp hc with rfl | hc
        · exact hx
        · exact ih hc
      · simp at hc
  · induction s with
    | nil => simp at hc
    | cons x xs ih =>
      rw [List.dropWhile_cons] at hc
      split at hc
      · exact ih hc
      · rename_i hx
        simp at hc
        subst hc
        simpa using hx

theorem dropWhile_crud {a t : Bytes} (ha : ∀ c ∈ a, Crud c) (ht : ∀ c, t.head? = some c → ¬ Crud c) : (a ++ t).dropWhile isCrud = t := by
  induction a with
  | nil =>
    cases t with
    | nil => rfl
    | cons x xs =>
      rw [List.nil_append, List.dropWhile_cons, if_neg]
      rw [isCrud_iff]
      exact ht x rfl
  | cons x xs ih =>
    rw [List.cons_append, List.dropWhile_cons, if_pos ((isCrud_iff x).mpr (ha x (by simp)))]
    exact ih fun c hc => ha c (List.mem_cons_of_mem _ hc)

theorem trimmed_of {s t : Bytes} (h : StripsTo s t) : trimmed s = t := by
  obtain ⟨a, b, rfl, ha, hb, hh, hl⟩ := h
  unfold trimmed
  by_cases ht : t = []
  · subst ht
    have : (a ++ [] ++ b).dropWhile isCrud = [] := by
      have := dropWhile_crud (a := a ++ [] ++ b) (t := []) (by
        intro c hc
        rw [List.append_nil] at hc
        rcases List.mem_append.mp hc with h | h
        · exact ha c h
        · exact hb c h) (by simp)
      rwa [List.append_nil] at this
    rw [this]; rfl
  · have h1 : (a ++ t ++ b).dropWhile isCrud = t ++ b := by
      rw [List.append_assoc]
      refine dropWhile_crud ha fun c hc => hh c ?_
      rwa [head?_append ht] at hc
    rw [h1, List.reverse_append, dropWhile_crud]
    · simp
    · simpa using hb
    · intro c hc
      rw [List.head?_reverse] at hc
      exact hl c hc

theorem trimmed_strips (s : Bytes) : StripsTo s (trimmed s) := by
  obtain ⟨h1, h2, h3⟩ := dropWhile_split isCrud s
  obtain ⟨g1, g2, g3⟩ := dropWhile_split isCrud (s.dropWhile isCrud).reverse
  refine ⟨s.takeWhile isCrud, ((s.dropWhile isCrud).reverse.takeWhile isCrud).reverse, ?_, fun c hc => (isCrud_iff c).mp (h2 c hc),
    fun c hc => (isCrud_iff c).mp (g2 c (by simpa using hc)), fun c hc => ?_, fun c hc => ?_⟩
  · unfold trimmed
    rw [List.append_assoc, ← List.reverse_append, ← g1, List.reverse_reverse, ← h1]
  · unfold trimmed at hc
    by_cases hne : ((s.dropWhile isCrud).reverse.dropWhile isCrud) = []
    · rw [hne] at hc; simp at hc
    · have : s.dropWhile isCrud = ((s.dropWhile isCrud).reverse.dropWhile isCrud).reverse ++ ((s.dropWhile isCrud).reverse.takeWhile isCrud).reverse := by
        rw [← List.reverse_append, ← g1, List.reverse_reverse]
      rw [← isCrud_iff, Bool.not_eq_true]
      refine h3 c ?_
      rw [this, head?_append (by simpa using hne)]
      exact hc
  · unfold trimmed at hc
    rw [List.getLast?_reverse] at hc
    rw [← isCrud_iff, Bool.not_eq_true]
    exact g3 c hc

theorem hasBrackets_iff (s : Bytes) : hasBrackets s = false ↔ NoBrackets s := by
  unfold hasBrackets NoBrackets
  simp

/-- **C12 (new).** A signature is made exactly from a name and an email without angle brackets that are not only white space and
punctuation; it has both without white space and punctuation at their ends, and the time and offset given. -/
theorem C12_new (name email : Bytes) (time offset : Int) (s : Signature) :
    new name email time offset = .ok s ↔
      NoBrackets name ∧ NoBrackets email ∧ StripsTo name s.name ∧ StripsTo email s.email ∧ s.name ≠ [] ∧ s.email ≠ [] ∧
      s.time = time ∧ s.offset = offset ∧ s.sign = if offset < 0 then c!"-" else c!"+" := by
  unfold new
  by_cases hb : (hasBrackets name || hasBrackets email) = true
  · rw [if_pos hb]
    constructor
    · intro h; cases h
    · rintro ⟨h1, h2, _⟩
      rw [← hasBrackets_iff] at h1 h2
      rw [h1, h2] at hb
      cases hb
  · rw [if_neg hb]
    rw [Bool.not_eq_true, Bool.or_eq_false_iff, hasBrackets_iff, hasBrackets_iff] at hb
    dsimp only
    by_cases he : trimmed name = [] ∨ trimmed email = []
    · rw [if_pos he]
      constructor
      · intro h; cases h
      · rintro ⟨_, _, h3, h4, h5, h6, _⟩
        rw [trimmed_of h3, trimmed_of h4] at he
        rcases he with he | he
        · exact absurd he h5
        · exact absurd he h6
    · rw [if_neg he, not_or] at *
      constructor
      · intro h
        have := Res.ok.inj h
        subst this
        exact ⟨hb.1, hb.2, trimmed_strips _, trimmed_strips _, he.1, he.2, rfl, rfl, rfl⟩
      · rintro ⟨_, _, h3, h4, h5, h6, h7, h8, h9⟩
        rw [trimmed_of h3, trimmed_of h4]
        cases s
        simp_all

/-! ### reading what was written -/

theorem lastIdx_append {c : UInt8} (a : Bytes) {b : Bytes} (hb : c ∉ b) : lastIdx c (a ++ c :: b) = some a.length := by
  have hn : ∀ b : Bytes, c ∉ b → lastIdx c b = none := by
    intro b
    induction b with
    | nil => intro _; rfl
    | cons x xs ih =>
      intro h
      rw [lastIdx, ih fun hh => h (List.mem_cons_of_mem _ hh)]
      show (if x = c then some 0 else none) = none
      rw [if_neg fun hh => h (by simp [hh])]
  induction a with
  | nil =>
    rw [List.nil_append, lastIdx, hn b hb]
    show (if c = c then some 0 else none) = some 0
    rw [if_pos rfl]
  | cons x xs ih => rw [List.cons_append, lastIdx, ih]; rfl

theorem lastIdx_split {c : UInt8} {l : Bytes} {i : Nat} (h : lastIdx c l = some i) : ∃ a b, l = a ++ c :: b ∧ a.length = i ∧ c ∉ b := by
  have hn : ∀ b : Bytes, lastIdx c b = none → c ∉ b := by
    intro b
    induction b with
    | nil => intro _; simp
    | cons x xs ih =>
      intro h
      rw [lastIdx] at h
      cases hx : lastIdx c xs with
      | some i => rw [hx] at h; cases h
      | none =>
        rw [hx] at h
        have h' : (if x = c then some 0 else none) = none := h
        intro hm
        rcases List.mem_cons.mp hm with rfl | hm
        · rw [if_pos rfl] at h'; cases h'
        · exact ih hx hm
  induction l generalizing i with
  | nil => cases h
  | cons x xs ih =>
    rw [lastIdx] at h
    cases hx : lastIdx c xs with
    | some j =>
      rw [hx] at h
      obtain ⟨a, b, rfl, h2, h3⟩ := ih hx
      have : j + 1 = i := Option.some.inj h
      exact ⟨x :: a, b, rfl, by simp; omega, h3⟩
    | none =>
      rw [hx] at h
      have h' : (if x = c then some 0 else none) = some i := h
      by_cases he : x = c
      · rw [if_pos he] at h'
        have := Option.some.inj h'
        subst he this
        exact ⟨[], xs, rfl, rfl, hn xs hx⟩
      · rw [if_neg he] at h'; cases h'

theorem digit_of : ∀ n : Fin 10, UInt8.ofNat (48 + n.val) = 48 + UInt8.ofNat n.val := by decide

theorem pad2_eq (n : Nat) (h : n < 100) : pad2 n = [UInt8.ofNat (48 + n / 10), UInt8.ofNat (48 + n % 10)] := by
  unfold pad2
  by_cases h1 : n < 10
  · rw [if_pos h1, decimal_lt n h1, Nat.div_eq_of_lt h1, Nat.mod_eq_of_lt h1]
    rfl
  · rw [if_neg h1, decimal_ge n h1, decimal_lt _ (by omega)]
    rfl

def zone4 (h m : Nat) : Bytes := [UInt8.ofNat (48 + h / 10), UInt8.ofNat (48 + h % 10), UInt8.ofNat (48 + m / 10), UInt8.ofNat (48 + m % 10)]

theorem zone_number : ∀ h : Fin 15, ∀ m : Fin 60, Strtol.strntol32 (zone4 h.val m.val) 10 = .ok ((h.val * 100 + m.val : Nat), []) := by decide +kernel

theorem parseZone_written {offset : Int} (ho : offset.natAbs < 900) (c : UInt8) (hc : c = c!"-" ∨ c = c!"+") (hneg : offset < 0 → c = c!"-")
    (hpos : 0 < offset → c = c!"+") : parseZone (c :: (pad2 (offset.natAbs / 60) ++ pad2 (offset.natAbs % 60))) = .ok (offset, c) := by
  rw [pad2_eq _ (by omega), pad2_eq _ (by omega)]
  have hz := zone_number ⟨offset.natAbs / 60, by omega⟩ ⟨offset.natAbs % 60, by omega⟩
  unfold zone4 at hz
  have hc' : ¬ (c ≠ c!"-" ∧ c ≠ c!"+") := fun h => hc.elim h.1 h.2
  have hn : zoneNumber c ([UInt8.ofNat (48 + offset.natAbs / 60 / 10), UInt8.ofNat (48 + offset.natAbs / 60 % 10)] ++
      [UInt8.ofNat (48 + offset.natAbs % 60 / 10), UInt8.ofNat (48 + offset.natAbs % 60 % 10)]) = (offset.natAbs / 60 * 100 + offset.natAbs % 60 : Nat) := by
    unfold zoneNumber
    rw [if_neg hc']
    dsimp only [List.cons_append, List.nil_append] at hz ⊢
    rw [hz]
  rw [parseZone, hn]
  have e1 : ((offset.natAbs / 60 * 100 + offset.natAbs % 60 : Nat) : Int).tdiv 100 = (offset.natAbs / 60 : Nat) := by
    rw [Int.tdiv_eq_ediv_of_nonneg (by omega)]; omega
  have e2 : ((offset.natAbs / 60 * 100 + offset.natAbs % 60 : Nat) : Int).tmod 100 = (offset.natAbs % 60 : Nat) := by
    rw [Int.tmod_eq_emod_of_nonneg (by omega)]; omega
  rw [e1, e2, if_pos (by omega)]
  congr 2
  by_cases hm : c = c!"-"
  · rw [if_pos hm]
    have : offset ≤ 0 := Int.not_lt.mp fun h => by
      have := hpos h
      rw [hm] at this
      exact absurd this (by decide)
    omega
  · rw [if_neg hm]
    have : 0 ≤ offset := Int.not_lt.mp fun h => hm (hneg h)
    omega

/-- the sign written -/
def written (s : Signature) : UInt8 := if s.offset < 0 ∨ s.sign = c!"-" then c!"-" else c!"+"

theorem stops {c : UInt8} (h1 : c ∉ Strtol.Spec.digits) (h2 : c ∉ Strtol.Spec.upper) (rest : Bytes) :
    ∀ x, (c :: rest).head? = some x → ∀ d, Strtol.Spec.Digit x d → 10 ≤ d := by
  intro x hx d hd
  have : c = x := Option.some.inj hx
  subst this
  rcases hd with h | h
  · exact absurd (List.mem_of_getElem? h) h1
  · exact absurd (List.mem_of_getElem? h) h2

theorem parseTime_written {s : Signature} (ht : 0 ≤ s.time ∧ s.time < 2 ^ 32) (ho : s.offset.natAbs < 900) (hs : s.sign = c!"-" → s.offset ≤ 0) :
    parseTime (b!" " ++ decimal (s.time % 2 ^ 32).toNat ++ b!" " ++ [written s] ++ pad2 (s.offset.natAbs / 60) ++ pad2 (s.offset.natAbs % 60)) =
      .ok (s.time, s.offset, written s) := by
  unfold parseTime
  have hd := decimal_ne_nil (s.time % 2 ^ 32).toNat
  rw [if_pos]
  rotate_left
  · simp only [List.length_append, List.length_cons, List.length_nil]; omega
  have e : (b!" " ++ decimal (s.time % 2 ^ 32).toNat ++ b!" " ++ [written s] ++ pad2 (s.offset.natAbs / 60) ++ pad2 (s.offset.natAbs % 60)).drop 1 =
      decimal (s.time % 2 ^ 32).toNat ++ c!" " :: written s :: (pad2 (s.offset.natAbs / 60) ++ pad2 (s.offset.natAbs % 60)) := by
    simp only [List.append_assoc, List.cons_append, List.nil_append, List.drop_succ_cons, List.drop_zero]
  rw [e, strntol64_decimal _ _ (stops (by decide) (by decide) _) (by omega)]
  dsimp only
  rw [if_pos (by simp)]
  simp only [List.drop_succ_cons, List.drop_zero]
  have hw : written s = c!"-" ∨ written s = c!"+" := by unfold written; split <;> simp
  rw [parseZone_written ho _ hw]
  · show Res.ok _ = Res.ok _
    congr 2
    omega
  · intro h; unfold written; rw [if_pos (.inl h)]
  · intro h
    unfold written
    rw [if_neg]
    rintro (h' | h')
    · omega
    · have := hs h'; omega

/-- what can be written and read back -/
structure Writable (s : Signature) : Prop where
  name : StripsTo s.name s.name
  email : StripsTo s.email s.email
  line : OneLine s.name ∧ OneLine s.email
  bracket : c!"<" ∉ s.email
  time : 0 ≤ s.time ∧ s.time < 2 ^ 32
  offset : s.offset.natAbs < 900
  sign : s.sign = c!"-" → s.offset ≤ 0

theorem cstr_self {s : Bytes} (h : 0 ∉ s) : cstr s = s := by
  unfold cstr
  have := List.takeWhile_append_of_pos (p := (· ≠ (0 : UInt8))) (l₁ := s) (l₂ := []) (by
    intro c hc
    rw [decide_eq_true_eq]
    rintro rfl
    exact h hc)
  simpa using this

theorem pad2_mem {n : Nat} (h : n < 100) {c : UInt8} (hc : c ∈ pad2 n) : 48 ≤ c ∧ c ≤ 57 := by
  rw [pad2_eq n h] at hc
  simp only [List.mem_cons, List.not_mem_nil, or_false] at hc
  rcases hc with rfl | rfl
  · exact isdigit10 ⟨n / 10, by omega⟩
  · exact isdigit10 ⟨n % 10, by omega⟩

/-- what is written after the email -/
def timeText (s : Signature) : Bytes :=
  b!" " ++ decimal (s.time % 2 ^ 32).toNat ++ b!" " ++ [written s] ++ pad2 (s.offset.natAbs / 60) ++ pad2 (s.offset.natAbs % 60)

theorem timeText_mem {s : Signature} (ho : s.offset.natAbs < 900) {c : UInt8} (hc : c ∈ timeText s) : c = c!" " ∨ c = c!"+" ∨ c = c!"-" ∨ 48 ≤ c ∧ c ≤ 57 := by
  unfold timeText at hc
  simp only [List.mem_append, List.mem_cons, List.not_mem_nil, or_false] at hc
  rcases hc with ((((h | h) | h) | h) | h) | h
  · exact .inl h
  · exact .inr (.inr (.inr (decimal_digits _ c h)))
  · exact .inl h
  · subst h; unfold written; split <;> simp
  · exact .inr (.inr (.inr (pad2_mem (by omega) h)))
  · exact .inr (.inr (.inr (pad2_mem (by omega) h)))

theorem timeChar : ∀ c : UInt8, (c = c!" " ∨ c = c!"+" ∨ c = c!"-" ∨ 48 ≤ c ∧ c ≤ 57) → c ≠ c!"<" ∧ c ≠ c!">" ∧ c ≠ c!"\n" ∧ c ≠ 0 := by decide +kernel

theorem writebuf_eq (header : Bytes) (s : Signature) :
    writebuf header s = header ++ (s.name ++ c!" " :: c!"<" :: (s.email ++ c!">" :: timeText s)) ++ b!"\n" := by
  unfold writebuf timeText written
  simp only [List.append_assoc, List.cons_append, List.nil_append]

theorem parseLine_written {s : Signature} (h : Writable s) :
    parseLine (s.name ++ c!" " :: c!"<" :: (s.email ++ c!">" :: timeText s)) = .ok { s with sign := written s } := by
  have ht := fun c (hc : c ∈ timeText s) => timeChar c (timeText_mem h.offset hc)
  have e1 : s.name ++ c!" " :: c!"<" :: (s.email ++ c!">" :: timeText s) = (s.name ++ b!" ") ++ c!"<" :: (s.email ++ c!">" :: timeText s) := by simp
  have e2 : s.name ++ c!" " :: c!"<" :: (s.email ++ c!">" :: timeText s) = (s.name ++ b!" <" ++ s.email) ++ c!">" :: timeText s := by simp
  have l1 : lastIdx c!"<" (s.name ++ c!" " :: c!"<" :: (s.email ++ c!">" :: timeText s)) = some (s.name.length + 1) := by
    rw [e1, lastIdx_append]
    · simp
    · intro hm
      rcases List.mem_append.mp hm with hm | hm
      · exact h.bracket hm
      · rcases List.mem_cons.mp hm with hm | hm
        · exact absurd hm (by decide)
        · exact (ht _ hm).1 rfl
  have l2 : lastIdx c!">" (s.name ++ c!" " :: c!"<" :: (s.email ++ c!">" :: timeText s)) = some (s.name.length + 2 + s.email.length) := by
    rw [e2, lastIdx_append]
    · simp; omega
    · exact fun hm => (ht _ hm).2.1 rfl
  unfold parseLine
  rw [l1, l2]
  dsimp only
  rw [if_neg (by omega)]
  have d1 : (s.name ++ c!" " :: c!"<" :: (s.email ++ c!">" :: timeText s)).drop (s.name.length + 2 + s.email.length + 1) = timeText s := by
    rw [e2, show s.name.length + 2 + s.email.length + 1 = (s.name ++ b!" <" ++ s.email).length + 1 by simp; omega, List.drop_length_add_append]
    rfl
  have d2 : (s.name ++ c!" " :: c!"<" :: (s.email ++ c!">" :: timeText s)).take (s.name.length + 1) = s.name ++ b!" " := by
    rw [e1, show s.name.length + 1 = (s.name ++ b!" ").length by simp, List.take_left]
  have d3 : ((s.name ++ c!" " :: c!"<" :: (s.email ++ c!">" :: timeText s)).take (s.name.length + 2 + s.email.length)).drop (s.name.length + 1 + 1) = s.email := by
    rw [e2, show s.name.length + 2 + s.email.length = (s.name ++ b!" <" ++ s.email).length by simp; omega, List.take_left,
      show s.name.length + 1 + 1 = (s.name ++ b!" <").length by simp, List.drop_left]
  rw [d1, d2, d3]
  have ht2 := parseTime_written h.time h.offset h.sign
  unfold timeText
  rw [ht2]
  have n1 : trimmed (s.name ++ b!" ") = s.name := by
    refine trimmed_of ?_
    obtain ⟨_, _, _, _, _, hh, hl⟩ := h.name
    exact ⟨[], b!" ", by simp, by simp, fun c hc => .inl (by simp at hc; subst hc; decide), hh, hl⟩
  rw [n1, trimmed_of h.email, cstr_self h.line.1.2, cstr_self h.line.2.2]
  rfl

/-- reading back what was written -/
theorem parse_written {s : Signature} (h : Writable s) {header : Bytes} (hh : c!"\n" ∉ header) (rest : Bytes) :
    parse (writebuf header s ++ rest) header c!"\n" = .ok ({ s with sign := written s }, rest) := by
  have hmem : ∀ c ∈ header ++ (s.name ++ c!" " :: c!"<" :: (s.email ++ c!">" :: timeText s)), c ≠ c!"\n" := by
    intro c hc hn
    subst hn
    simp only [List.mem_append, List.mem_cons] at hc
    rcases hc with hc | hc | hc | hc | hc | hc | hc
    · exact hh hc
    · exact h.line.1.1 hc
    · exact absurd hc (by decide)
    · exact absurd hc (by decide)
    · exact h.line.2.1 hc
    · exact absurd hc (by decide)
    · exact (timeChar _ (timeText_mem h.offset hc)).2.2.1 rfl
  rw [writebuf_eq, List.append_assoc]
  generalize hL : s.name ++ c!" " :: c!"<" :: (s.email ++ c!">" :: timeText s) = L at hmem
  have hpos : 0 < L.length := by rw [← hL]; simp; omega
  have ht : (header ++ L ++ (b!"\n" ++ rest)).takeWhile (· ≠ c!"\n") = header ++ L := by
    rw [List.takeWhile_append_of_pos (by intro c hc; simpa using hmem c hc)]
    simp
  have hd : (header ++ L ++ (b!"\n" ++ rest)).dropWhile (· ≠ c!"\n") = c!"\n" :: rest := by
    rw [List.dropWhile_append_of_pos (by intro c hc; simpa using hmem c hc)]
    simp
  unfold parse
  have e1 : (if c!"\n" ≠ 0 then (header ++ L ++ (b!"\n" ++ rest)).takeWhile (· ≠ c!"\n") else header ++ L ++ (b!"\n" ++ rest)) = header ++ L := by
    rw [if_pos (by decide), ht]
  have e2 : (if c!"\n" ≠ 0 then ((header ++ L ++ (b!"\n" ++ rest)).dropWhile (· ≠ c!"\n")).drop 1 else []) = rest := by
    rw [if_pos (by decide), hd]; rfl
  rw [if_neg (by simp)]
  dsimp only
  rw [e1, e2, if_neg]
  · rw [List.drop_left, ← hL, parseLine_written h]
    rfl
  · rintro ⟨_, h1 | h1⟩
    · simp at h1; omega
    · rw [List.take_left] at h1; exact h1 rfl

theorem writable_new {name email : Bytes} {time offset : Int} {s : Signature} (h : new name email time offset = .ok s)
    (hn : OneLine name) (he : OneLine email) (ht : 0 ≤ time ∧ time < 2 ^ 32) (ho : -900 < offset ∧ offset < 900) : Writable s ∧ written s = s.sign := by
  obtain ⟨h1, h2, ⟨a, b, h3, _, _, h4⟩, ⟨a', b', h5, _, _, h6⟩, _, _, h7, h8, h9⟩ := (C12_new _ _ _ _ _).mp h
  subst h3 h5 h7 h8
  refine ⟨⟨⟨[], [], by simp, by simp, by simp, h4⟩, ⟨[], [], by simp, by simp, by simp, h6⟩,
    ⟨⟨fun h => hn.1 (by simp [h]), fun h => hn.2 (by simp [h])⟩, ⟨fun h => he.1 (by simp [h]), fun h => he.2 (by simp [h])⟩⟩,
    fun h => h2.1 (by simp [h]), ht, by omega, fun hs => ?_⟩, ?_⟩
  · rw [h9] at hs
    split at hs
    · omega
    · exact absurd hs (by decide)
  · unfold written
    rw [h9]
    by_cases hneg : s.offset < 0
    · simp [hneg]
    · simp [hneg]

/-- **C12 (round trip).** A signature made from a name and an email in one line, a time that fits 32 bits without sign and an offset of less
than 15 hours is read back from what is written for it - as a header line of any object, whatever follows - unchanged. -/
theorem C12_roundtrip {name email : Bytes} {time offset : Int} {s : Signature} (h : new name email time offset = .ok s)
    (hn : OneLine name) (he : OneLine email) (ht : 0 ≤ time ∧ time < 2 ^ 32) (ho : -900 < offset ∧ offset < 900)
    {header : Bytes} (hh : c!"\n" ∉ header) (rest : Bytes) : parse (writebuf header s ++ rest) header c!"\n" = .ok (s, rest) := by
  obtain ⟨h1, h2⟩ := writable_new h hn he ht ho
  rw [parse_written h1 hh, h2]

/-! ### reading anything -/

theorem strntol64_ne_ub (s : Bytes) : Strtol.strntol64 s 10 ≠ .ub := by
  by_cases h : ∃ v rest, Strtol.Spec.Number s 10 v rest ∧ -(2 ^ 63) ≤ v ∧ v < 2 ^ 63
  · obtain ⟨v, rest, h⟩ := h
    rw [(Strtol.C46_exact64 _ _ _ _).mpr h]
    exact fun h => nomatch h
  · rw [Strtol.C46_fails _ _ h]
    exact fun h => nomatch h

theorem parseTime_ne_ub (t : Bytes) : parseTime t ≠ .ub := by
  unfold parseTime
  split
  · cases h : Strtol.strntol64 (t.drop 1) 10 with
    | ok v =>
      dsimp only
      split
      · rename_i h1
        cases hd : v.2.drop 1 with
        | nil => have := congrArg List.length hd; simp at this; omega
        | cons c more =>
          rw [parseZone]
          split <;> exact fun h => nomatch h
      · exact fun h => nomatch h
    | err e => exact fun h => nomatch h
    | ub => exact absurd h (strntol64_ne_ub _)
  · exact fun h => nomatch h

/-- **C12 (safety).** Reading a signature never reads outside the buffer, whatever is in it. -/
theorem C12_safe (buffer header : Bytes) (ender : UInt8) : parse buffer header ender ≠ .ub := by
  have hl : ∀ line, parseLine line ≠ .ub := by
    intro line
    unfold parseLine
    split
    · split
      · exact fun h => nomatch h
      · cases h : parseTime _ with
        | ok t => simp
        | err e => simp
        | ub => exact absurd h (parseTime_ne_ub _)
    · exact fun h => nomatch h
  unfold parse
  split
  · exact fun h => nomatch h
  dsimp only
  generalize (if ender ≠ 0 then buffer.takeWhile (· ≠ ender) else buffer) = line
  generalize (if ender ≠ 0 then (buffer.dropWhile (· ≠ ender)).drop 1 else []) = rest
  split
  · exact fun h => nomatch h
  cases h : parseLine (line.drop header.length) with
  | ok t => simp
  | err e => simp
  | ub => exact absurd h (hl _)

theorem bind_inv {α β : Type} {r : Res α} {f : α → Res β} {b : β} (h : (r >>= f) = .ok b) : ∃ a, r = .ok a ∧ f a = .ok b := by
  cases r with
  | ok a => exact ⟨a, rfl, h⟩
  | err e => cases h
  | ub => cases h

theorem mem_trimmed {s : Bytes} {c : UInt8} (h : c ∈ trimmed s) : c ∈ s := by
  obtain ⟨a, b, h1, _⟩ := trimmed_strips s
  rw [h1]
  simp [h]

theorem mem_cstr {s : Bytes} {c : UInt8} (h : c ∈ cstr s) : c ∈ s := (List.takeWhile_sublist _).subset h

theorem trimmed_idem (s : Bytes) : StripsTo (trimmed s) (trimmed s) := by
  obtain ⟨_, _, _, _, _, h1, h2⟩ := trimmed_strips s
  exact ⟨[], [], by simp, by simp, by simp, h1, h2⟩

/-- **C12 (shape).** A signature that is read is taken from the first line only: the buffer is a line, which begins with the header, and what is
left. Neither name nor email has a newline in it, and the email has no opening bracket. -/
theorem C12_parsed {buffer header rest : Bytes} {s : Signature} (h : parse buffer header c!"\n" = .ok (s, rest)) :
    (∃ text, buffer = header ++ text ++ c!"\n" :: rest ∧ c!"\n" ∉ header ++ text ∧ (∀ c ∈ s.name, c ∈ text) ∧ ∀ c ∈ s.email, c ∈ text) ∧
      OneLine s.name ∧ OneLine s.email ∧ c!"<" ∉ s.email ∧
      (0 ∉ buffer → StripsTo s.name s.name ∧ StripsTo s.email s.email) := by
  unfold parse at h
  split at h
  · cases h
  rename_i hc
  have hm : c!"\n" ∈ buffer := by
    refine Decidable.byContradiction fun hh => hc ⟨by decide, ?_⟩
    simpa using hh
  have e1 : (if c!"\n" ≠ 0 then buffer.takeWhile (· ≠ c!"\n") else buffer) = buffer.takeWhile (· ≠ c!"\n") := if_pos (by decide)
  have e2 : (if c!"\n" ≠ 0 then (buffer.dropWhile (· ≠ c!"\n")).drop 1 else []) = (buffer.dropWhile (· ≠ c!"\n")).drop 1 := if_pos (by decide)
  dsimp only at h
  rw [e1, e2] at h
  obtain ⟨g1, g2, g3⟩ := dropWhile_split (· ≠ c!"\n") buffer
  have hdw : buffer.dropWhile (· ≠ c!"\n") = c!"\n" :: (buffer.dropWhile (· ≠ c!"\n")).drop 1 := by
    cases hd : buffer.dropWhile (· ≠ c!"\n") with
    | nil =>
      exfalso
      rw [hd, List.append_nil] at g1
      rw [g1] at hm
      have := g2 _ hm
      simp at this
    | cons x xs =>
      have := g3 x (by rw [hd]; rfl)
      simp at this
      rw [this]; rfl
  split at h
  · cases h
  rename_i hh
  obtain ⟨s', h1, h2⟩ := bind_inv h
  have := Res.ok.inj h2
  rw [Prod.mk.injEq] at this
  obtain ⟨rfl, hr⟩ := this
  generalize hline : buffer.takeWhile (· ≠ c!"\n") = line at *
  have hpre : line.take header.length = header := by
    by_cases hn : header = []
    · rw [hn]; rfl
    · exact Decidable.byContradiction fun hx => hh ⟨hn, .inr hx⟩
  have hl : line = header ++ line.drop header.length := by
    conv => lhs; rw [← List.take_append_drop header.length line, hpre]
  have hnl : c!"\n" ∉ line := fun hx => by have := g2 _ hx; simp at this
  have hb : buffer = line ++ c!"\n" :: rest := by rw [g1, hdw, ← hr]
  generalize line.drop header.length = text at hl h1
  have hsub : ∀ c ∈ text, c ∈ line := fun c hc => by rw [hl]; exact List.mem_append_right _ hc
  unfold parseLine at h1
  cases hi : lastIdx c!"<" text with
  | none => rw [hi] at h1; cases h1
  | some i =>
    cases hj : lastIdx c!">" text with
    | none => rw [hi, hj] at h1; cases h1
    | some j =>
      rw [hi, hj] at h1
      dsimp only at h1
      split at h1
      · cases h1
      rename_i hij
      obtain ⟨t, _, h4⟩ := bind_inv h1
      have := Res.ok.inj h4
      subst this
      dsimp only
      have n1 : ∀ c ∈ cstr (trimmed (text.take i)), c ∈ text := fun c hc => List.mem_of_mem_take (mem_trimmed (mem_cstr hc))
      have n2 : ∀ c ∈ cstr (trimmed ((text.take j).drop (i + 1))), c ∈ text := fun c hc =>
        List.mem_of_mem_take (List.mem_of_mem_drop (mem_trimmed (mem_cstr hc)))
      have hz : ∀ x : Bytes, 0 ∉ cstr x := fun x hx => by
        unfold cstr at hx
        have := (dropWhile_split (· ≠ (0 : UInt8)) x).2.1 _ hx
        simp at this
      obtain ⟨a, b, k1, k2, k3⟩ := lastIdx_split hi
      obtain ⟨a', b', k1', k2', k3'⟩ := lastIdx_split hj
      refine ⟨⟨text, by rw [hb, hl], by rw [← hl]; exact hnl, n1, n2⟩, ⟨fun hx => hnl (hsub _ (n1 _ hx)), hz _⟩, ⟨fun hx => hnl (hsub _ (n2 _ hx)), hz _⟩,
        fun hx => ?_, fun h0 => ?_⟩
      · have := mem_trimmed (mem_cstr hx)
        rw [List.drop_take] at this
        have := List.mem_of_mem_take this
        rw [k1, show i + 1 = a.length + 1 by omega, List.drop_length_add_append] at this
        exact k3 this
      · have z1 : 0 ∉ text := fun hx => h0 (by rw [hb]; exact List.mem_append_left _ (hsub _ hx))
        rw [cstr_self fun hx => z1 (List.mem_of_mem_take (mem_trimmed hx)),
          cstr_self fun hx => z1 (List.mem_of_mem_take (List.mem_of_mem_drop (mem_trimmed hx)))]
        exact ⟨trimmed_idem _, trimmed_idem _⟩

/-- **C12 (rewriting).** A signature that was read - from any line without NUL - and is written again, as when a commit is amended, is read back with
the same name and email, time and offset, when these are in the range that can be written. (A sign that was neither `+` nor `-` becomes one.) -/
theorem C12_rewrite {buffer header rest : Bytes} {s : Signature} (h : parse buffer header c!"\n" = .ok (s, rest)) (h0 : 0 ∉ buffer)
    (ht : 0 ≤ s.time ∧ s.time < 2 ^ 32) (ho : -900 < s.offset ∧ s.offset < 900) (hs : s.sign = c!"-" → s.offset ≤ 0)
    {header' : Bytes} (hh : c!"\n" ∉ header') (rest' : Bytes) :
    ∃ s', parse (writebuf header' s ++ rest') header' c!"\n" = .ok (s', rest') ∧
      s'.name = s.name ∧ s'.email = s.email ∧ s'.time = s.time ∧ s'.offset = s.offset := by
  obtain ⟨_, h1, h2, h3, h4⟩ := C12_parsed h
  obtain ⟨h5, h6⟩ := h4 h0
  exact ⟨_, parse_written ⟨h5, h6, ⟨h1, h2⟩, h3, ht, by omega, hs⟩ hh rest', rfl, rfl, rfl, rfl⟩

/-! ### examples, and what is lost -/

/-- the hypotheses can be met -/
def exSig : Signature := ⟨b!"A. U. Thor", b!"a@example.org", 1234567890, -90, c!"-"⟩

example : new b!" A. U. Thor\t" b!"<a@example.org" 1234567890 (-90) = .err (-1) := by decide +kernel
example : new b!" A. U. Thor\t" b!"'a@example.org;" 1234567890 (-90) = .ok exSig := by decide +kernel
example : OneLine b!" A. U. Thor\t" ∧ OneLine b!"'a@example.org;" := by decide +kernel
theorem exSig_new : new exSig.name exSig.email exSig.time exSig.offset = .ok exSig := by decide +kernel
example : parse (writebuf b!"author " exSig ++ b!"x") b!"author " c!"\n" = .ok (exSig, b!"x") :=
  C12_roundtrip exSig_new (by decide +kernel) (by decide +kernel) (by decide) (by decide) (by decide) _
example : parse b!"author A <b> c <d>e> 5 x\nrest" b!"author " c!"\n" = .ok (⟨b!"A <b> c", b!"d>e", 5, 0, c!"x"⟩, b!"rest") := by decide +kernel

/-- A newline inside of a name is accepted, and the line written for it cannot be read back. -/
theorem C12_newline : ∃ s, new b!"A\nB" b!"e" 0 0 = .ok s ∧ s.name = b!"A\nB" ∧ ∀ rest, parse (writebuf b!"author " s ++ rest) b!"author " c!"\n" = .err EINVALID := by
  refine ⟨⟨b!"A\nB", b!"e", 0, 0, c!"+"⟩, by decide +kernel, rfl, fun rest => ?_⟩
  rw [writebuf_eq]
  simp only [List.append_assoc, List.cons_append, List.nil_append]
  unfold parse
  simp [parseLine, lastIdx]

/-- Times are written with 32 bits: for any time, what is read back is the time modulo 2^32. -/
theorem C12_time_lost {s : Signature} (h : Writable { s with time := s.time % 2 ^ 32 }) {header : Bytes} (hh : c!"\n" ∉ header) (rest : Bytes) :
    ∃ s', parse (writebuf header s ++ rest) header c!"\n" = .ok (s', rest) ∧ s'.time = s.time % 2 ^ 32 := by
  have e : writebuf header s = writebuf header { s with time := s.time % 2 ^ 32 } := by
    unfold writebuf
    dsimp only
    rw [Int.emod_emod_of_dvd _ (Int.dvd_refl _)]
  rw [e]
  exact ⟨_, parse_written h hh rest, rfl⟩

/-- An offset of 15 hours or more is written, and read back as zero. -/
theorem C12_offset_lost : ∃ s, new b!"A" b!"e" 0 900 = .ok s ∧ writebuf [] s = b!"A <e> 0 +1500\n" ∧
    parse b!"A <e> 0 +1500\n" [] c!"\n" = .ok (⟨b!"A", b!"e", 0, 0, 0⟩, []) := by
  refine ⟨⟨b!"A", b!"e", 0, 900, c!"+"⟩, by decide +kernel, ?_, by decide +kernel⟩
  unfold writebuf
  have h0 : (((0 : Int) % 2 ^ 32).toNat) = 0 := by decide
  have h1 : ((900 : Int).natAbs) = 900 := rfl
  dsimp only
  rw [h0, h1, decimal_lt 0 (by decide), pad2_eq _ (by decide), pad2_eq _ (by decide)]
  decide

end Verif.Sig
