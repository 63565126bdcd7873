import Verif.IndexExt.Lemmas3
/-! # What is written -/
namespace Verif.IndexExt
open Spec
open IndexTree (Cache)
open Strtol.Spec (Number Spells Digit Space)

theorem not_digit_zero (d : Nat) (h : Digit 0 d) : False := by
  unfold Digit at h
  rcases h with h | h <;> · have := List.mem_of_getElem? h; revert this; decide

theorem not_digit_space (d : Nat) (h : Digit c!" " d) : False := by
  unfold Digit at h
  rcases h with h | h <;> · have := List.mem_of_getElem? h; revert this; decide

theorem not_digit_nl (d : Nat) (h : Digit c!"\n" d) : False := by
  unfold Digit at h
  rcases h with h | h <;> · have := List.mem_of_getElem? h; revert this; decide

/-- an octal numeral reads as its number -/
theorem number_octal (n : Nat) (t : Bytes) : Number (Tree.octal n ++ 0 :: t) 8 n (0 :: t) := by
  obtain ⟨c, cs, hc⟩ := List.exists_cons_of_ne_nil (Tree.octal_ne_nil n)
  obtain ⟨v, hv, -⟩ := Tree.spells_mem (Tree.octal_spells n) c (by rw [hc]; simp)
  have hsp := (Tree.not_space_digit c ⟨v, Tree.digit_lt36 hv⟩ hv).1
  refine ⟨[], [], false, [], Tree.octal n, 8, n, rfl, by simp, ?_, .inr ⟨rfl, .inr rfl⟩, ?_, by omega, Tree.octal_ne_nil n,
    Tree.octal_spells n, ?_, by simp⟩
  · intro c' hc'
    rw [hc] at hc'
    simp at hc'
    subst hc'
    exact hsp
  · right
    refine ⟨?_, rfl, by simp⟩
    rintro ⟨_, h | h⟩ <;> simp at h
  · intro c' hc' d hd
    simp at hc'
    subst hc'
    exact absurd hd (fun h => not_digit_zero d h)

theorem number_decimalInt (v : Int) (c : UInt8) (t : Bytes) (hc : c = c!" " ∨ c = c!"\n") :
    Number (decimalInt v ++ c :: t) 10 v (c :: t) := by
  have hr : ∀ c', (c :: t).head? = some c' → ∀ d, Digit c' d → 10 ≤ d := by
    intro c' hc' d hd
    simp at hc'
    subst hc'
    rcases hc with rfl | rfl
    · exact absurd hd (fun h => not_digit_space d h)
    · exact absurd hd (fun h => not_digit_nl d h)
  unfold decimalInt
  split
  · have := number_decimal_neg v.natAbs (c :: t) hr
    rwa [show -((v.natAbs : Nat) : Int) = v by omega] at this
  · have := number_decimal v.natAbs (c :: t) hr
    rwa [show ((v.natAbs : Nat) : Int) = v by omega] at this

/-- some stage is there -/
def Staged (e : Reuc) : Prop := e.mode0 ≠ 0 ∨ e.mode1 ≠ 0 ∨ e.mode2 ≠ 0

theorem writeOid_text (m : Nat) (o : Bytes) (h : o.length = 20) (hz : m = 0 → o = List.replicate 20 0) : IdText m (writeOid m o) o := by
  unfold IdText writeOid
  by_cases hm : m = 0
  · simp [hm, hz hm]
  · simp [hm, h]

theorem writeOid_ne_nil (m : Nat) (o : Bytes) (h : o.length = 20) (hm : m ≠ 0) : writeOid m o ≠ [] := by
  unfold writeOid
  rw [if_pos hm]
  rintro rfl
  simp at h

theorem writeReuc_cons (e : Reuc) (es : List Reuc) : writeReuc (e :: es) = e.path ++ 0 :: (Tree.octal e.mode0 ++ 0 :: (Tree.octal e.mode1 ++ 0 ::
    (Tree.octal e.mode2 ++ 0 :: (writeOid e.mode0 e.oid0 ++ (writeOid e.mode1 e.oid1 ++ (writeOid e.mode2 e.oid2 ++ writeReuc es)))))) := by
  simp [writeReuc, writeReucOne]

theorem writeReuc_text (es : List Reuc) (h : ∀ e ∈ es, Reuc.Ok e) (hl : ∀ e, es.getLast? = some e → Staged e) :
    ReucText (writeReuc es) es := by
  induction es with
  | nil => exact .nil
  | cons e es ih =>
    have he := h e (by simp)
    obtain ⟨p1, p2, p3⟩ := he.modes
    obtain ⟨q1, q2, q3⟩ := he.ids
    obtain ⟨z1, z2, z3⟩ := he.zero
    rw [writeReuc_cons]
    refine .cons (f0 := writeOid e.mode0 e.oid0) (f1 := writeOid e.mode1 e.oid1) (f2 := writeOid e.mode2 e.oid2) he.path
      (number_octal _ _) p1 (number_octal _ _) p2 (number_octal _ _) p3 ?_ rfl
      (writeOid_text _ _ q1 z1) (writeOid_text _ _ q2 z2) (writeOid_text _ _ q3 z3) (ih (fun x hx => h x (by simp [hx])) ?_)
    · cases es with
      | nil =>
        rcases hl e rfl with h1 | h1 | h1
        · simp [writeOid_ne_nil _ _ q1 h1]
        · simp [writeOid_ne_nil _ _ q2 h1]
        · simp [writeOid_ne_nil _ _ q3 h1]
      | cons e2 es2 => simp [writeReuc_cons]
    · intro x hx
      refine hl x ?_
      cases es with
      | nil => simp at hx
      | cons e2 es2 => simpa using hx

theorem number_det {s : Bytes} {base : Nat} {v v' : Int} {r r' : Bytes} (h : Number s base v r) (h' : Number s base v' r')
    (hf : -(2 ^ 63) ≤ v ∧ v < 2 ^ 63) (hf' : -(2 ^ 63) ≤ v' ∧ v' < 2 ^ 63) : v = v' ∧ r = r' := Strtol.C46_deterministic s base v v' r r' h h' hf hf'

/-- if the last one has no stage, the text is not well-formed -/
theorem writeReuc_bad (es : List Reuc) (h : ∀ e ∈ es, Reuc.Ok e) (e : Reuc) (hl : es.getLast? = some e) (hs : ¬ Staged e) :
    ∀ es', ¬ ReucText (writeReuc es) es' := by
  induction es with
  | nil => simp at hl
  | cons x es ih =>
    intro es' ht
    have hx := h x (by simp)
    obtain ⟨p1, p2, p3⟩ := hx.modes
    rw [writeReuc_cons] at ht
    generalize hb : x.path ++ 0 :: (Tree.octal x.mode0 ++ 0 :: (Tree.octal x.mode1 ++ 0 ::
      (Tree.octal x.mode2 ++ 0 :: (writeOid x.mode0 x.oid0 ++ (writeOid x.mode1 x.oid1 ++ (writeOid x.mode2 x.oid2 ++ writeReuc es)))))) = b at ht
    cases ht with
    | nil => simp at hb
    | @cons path m0 v0 v1 v2 t0 t1 t2 f0 f1 f2 o0 o1 o2 rest es' h0 h1 h2 h3 h4 h5 h6 h7 h8 h9 h10 h11 h12 =>
      obtain ⟨rfl, rfl⟩ := nul_unique hb hx.path h0
      obtain ⟨g1, g2⟩ := number_det h1 (number_octal _ _) (by omega) (by omega)
      simp only [List.cons.injEq, true_and] at g2
      subst g2
      obtain ⟨g3, g4⟩ := number_det h3 (number_octal _ _) (by omega) (by omega)
      simp only [List.cons.injEq, true_and] at g4
      subst g4
      obtain ⟨g5, g6⟩ := number_det h5 (number_octal _ _) (by omega) (by omega)
      simp only [List.cons.injEq, true_and] at g6
      subst g6
      have g1 : v0 = x.mode0 := by omega
      have g3 : v1 = x.mode1 := by omega
      have g5 : v2 = x.mode2 := by omega
      subst g1 g3 g5
      cases es with
      | nil =>
        simp only [List.getLast?_singleton, Option.some.injEq] at hl
        subst hl
        simp only [Staged, not_or, ne_eq, Decidable.not_not] at hs
        obtain ⟨k0, k1, k2⟩ := hs
        rw [k0, k1, k2] at h7
        exact h7 (by simp [writeOid, writeReuc])
      | cons y ys =>
        refine ih (fun z hz => h z (by simp [hz])) (by simpa using hl) es' ?_
        have key : ∀ (m : Nat) (f o o' r r' : Bytes), IdText m f o → o'.length = 20 → writeOid m o' ++ r = f ++ r' → r = r' := by
          intro m f o o' r r' hi hl' he
          unfold IdText at hi
          unfold writeOid at he
          by_cases hm : m = 0
          · rw [if_pos hm] at hi
            rw [if_neg (by simp [hm]), hi.1] at he
            simpa using he
          · rw [if_neg hm] at hi
            rw [if_pos hm] at he
            exact (List.append_inj he (by rw [hi.1, hi.2, hl'])).2
        obtain ⟨q1, q2, q3⟩ := hx.ids
        have a1 := key _ _ _ _ _ _ h9 q1 h8
        have a2 := key _ _ _ _ _ _ h10 q2 a1
        have a3 := key _ _ _ _ _ _ h11 q3 a2
        rw [a3]; exact h12

theorem writeNames_text (ns : List Name) (h : ∀ n ∈ ns, Name.Ok n) : NamesText (writeNames ns) ns := by
  have hw : ∀ (x : Option Bytes), (∀ s, x = some s → s ≠ [] ∧ (0 : UInt8) ∉ s) → ∃ s, writeName x = s ++ [0] ∧ NameText s x := by
    intro x hx
    cases x with
    | none => exact ⟨[], rfl, by simp, rfl⟩
    | some s => exact ⟨s, rfl, (hx s rfl).2, by rw [if_neg (hx s rfl).1]⟩
  induction ns with
  | nil => exact .nil
  | cons n ns ih =>
    have hn := h n (by simp)
    obtain ⟨s0, e0, k0⟩ := hw n.ancestor (fun s hs => hn s (.inl hs))
    obtain ⟨s1, e1, k1⟩ := hw n.ours (fun s hs => hn s (.inr (.inl hs)))
    obtain ⟨s2, e2, k2⟩ := hw n.theirs (fun s hs => hn s (.inr (.inr hs)))
    have e : writeNames (n :: ns) = s0 ++ 0 :: (s1 ++ 0 :: (s2 ++ 0 :: writeNames ns)) := by
      simp [writeNames, writeNamesOne, e0, e1, e2]
    rw [e]
    exact .cons k0 k1 k2 (ih (fun x hx => h x (by simp [hx])))

theorem writeTree_text : ∀ {c : Cache}, CacheOk c → ∀ rest, ∃ c', TreeText (writeTree c ++ rest) c' rest ∧ Same c c' := by
  intro c h
  induction h with
  | @mk name oid count cs h0 h1 h2 h3 h4 h5 ih =>
    intro rest
    have kids : ∀ (ds : List Cache), (∀ d ∈ ds, ∀ rest, ∃ c', TreeText (writeTree d ++ rest) c' rest ∧ Same d c') → ∀ rest,
        ∃ ds', KidsText (writeKids ds ++ rest) ds.length ds' rest ∧ ds.length = ds'.length ∧
          ∀ (i : Nat) c c', ds[i]? = some c → ds'[i]? = some c' → Same c c' := by
      intro ds
      induction ds with
      | nil => intro _ rest; exact ⟨[], .zero, rfl, by simp⟩
      | cons d ds ihd =>
        intro hd rest
        obtain ⟨ds', g1, g2, g3⟩ := ihd (fun x hx => hd x (by simp [hx])) rest
        obtain ⟨d', g4, g5⟩ := hd d (by simp) (writeKids ds ++ rest)
        refine ⟨d' :: ds', ?_, by simp [g2], ?_⟩
        · have : writeKids (d :: ds) ++ rest = writeTree d ++ (writeKids ds ++ rest) := by rw [writeKids]; simp
          rw [this]
          exact .succ g4 g1
        · intro i c c' hc hc'
          cases i with
          | zero => simp at hc hc'; subst hc; subst hc'; exact g5
          | succ i => simp at hc hc'; exact g3 i c c' hc hc'
    obtain ⟨cs', g1, g2, g3⟩ := kids cs (fun d hd => ih d hd) rest
    refine ⟨.mk name count (if count < 0 then List.replicate 20 0 else oid) cs', ?_, ?_⟩
    · have e : writeTree (.mk name count oid cs) ++ rest = name ++ 0 :: (decimalInt count ++ c!" " :: (decimalInt cs.length ++ c!"\n" ::
          ((if count ≠ -1 then oid else []) ++ (writeKids cs ++ rest)))) := by
        rw [writeTree]
        simp [decimalInt]
      rw [e]
      refine .node (f := if count ≠ -1 then oid else []) h0 (number_decimalInt _ _ _ (.inl rfl)) (by omega) h2
        (number_decimalInt _ _ _ (.inr rfl)) (by omega) (by omega) rfl ?_ (by simpa using g1)
      by_cases hc : count < 0
      · rw [if_pos hc, if_pos hc, if_neg (by omega)]
        exact ⟨rfl, rfl⟩
      · rw [if_neg hc, if_neg hc, if_pos (by omega)]
        exact ⟨rfl, h3⟩
    · exact .mk (fun hc => by rw [if_neg (by omega)]) g2 g3

end Verif.IndexExt
