import Verif.Attr.Lemmas
/-! # The words of a line -/
namespace Verif.Attr
open Spec
open Ignore (nextLine nextLine_append)
open Ignore.Spec (isBlank)
open Wildmatch (isSpace)

theorem blank_eq (c : UInt8) : isSpace c = isBlank c := rfl

theorem tw_append {p : UInt8 → Bool} {a b : Bytes} (ha : ∀ x ∈ a, p x = true) (hb : ∀ x ∈ b.head?, p x = false) : (a ++ b).takeWhile p = a ∧ (a ++ b).dropWhile p = b := by
  induction a with
  | nil =>
    cases b with
    | nil => exact ⟨rfl, rfl⟩
    | cons c b => simp [hb c rfl]
  | cons c a ih =>
    have := ih (fun x hx => ha x (List.mem_cons_of_mem _ hx))
    simp [ha c (List.mem_cons_self ..), this.1, this.2]

theorem tw_dw {p : UInt8 → Bool} (a : Bytes) : a = a.takeWhile p ++ a.dropWhile p ∧ (∀ x ∈ a.takeWhile p, p x = true) ∧ (∀ x ∈ (a.dropWhile p).head?, p x = false) := by
  refine ⟨(List.takeWhile_append_dropWhile).symm, ?_, ?_⟩
  · intro x hx
    induction a with
    | nil => simp at hx
    | cons c a ih =>
      rw [List.takeWhile_cons] at hx
      split at hx
      · rename_i hc
        rcases List.mem_cons.mp hx with rfl | hx
        · exact hc
        · exact ih hx
      · cases hx
  · intro x hx
    induction a with
    | nil => cases hx
    | cons c a ih =>
      rw [List.dropWhile_cons] at hx
      split at hx
      · exact ih hx
      · rename_i hc
        simp only [List.head?_cons, Option.mem_def, Option.some.injEq] at hx
        subst hx
        simpa using hc

theorem words_blank {b t : Bytes} (hb : ∀ c ∈ b, isBlank c = true) : words (b ++ t) = words t := by
  unfold words
  induction b with
  | nil => rfl
  | cons c b ih =>
    rw [List.cons_append, words.go, if_pos (hb c (by simp)), if_pos rfl]
    exact ih (fun x hx => hb x (by simp [hx]))

theorem words_go {w : Bytes} (hw : ∀ c ∈ w, isBlank c = false) (t cur : Bytes) : words.go (w ++ t) cur = words.go t (cur ++ w) := by
  induction w generalizing cur with
  | nil => simp
  | cons c w ih =>
    rw [List.cons_append, words.go, if_neg (by simp [hw c (by simp)]), ih (fun x hx => hw x (by simp [hx]))]
    simp

theorem words_word {w t : Bytes} (hw : ∀ c ∈ w, isBlank c = false) (hne : w ≠ []) (ht : ∀ c ∈ t.head?, isBlank c = true) : words (w ++ t) = w :: words t := by
  unfold words
  rw [words_go hw, List.nil_append]
  cases t with
  | nil => simp [words.go, hne]
  | cons c t =>
    have := ht c rfl
    rw [words.go, if_pos this, if_neg hne]
    rw [words.go, if_pos this, if_pos rfl]

theorem readAssigns_blank {b t : Bytes} (hb : ∀ c ∈ b, isBlank c = true) : readAssigns (b ++ t) = readAssigns t := by
  unfold readAssigns; rw [words_blank hb]

theorem readAssigns_word {w t : Bytes} (hw : ∀ c ∈ w, isBlank c = false) (hne : w ≠ []) (ht : ∀ c ∈ t.head?, isBlank c = true) :
    readAssigns (w ++ t) = if w.head? = some c!"#" then [] else (readWord w).toList ++ readAssigns t := by
  unfold readAssigns
  rw [words_word hw hne ht]
  by_cases h : w.head? = some c!"#"
  · rw [if_pos h, List.takeWhile_cons_of_neg (by simp [h])]; rfl
  · rw [if_neg h, List.takeWhile_cons_of_pos (by simpa using h), List.filterMap_cons]
    cases readWord w <;> rfl

theorem head_append {a b : Bytes} (h : a ≠ []) : (a ++ b).head? = a.head? := by
  cases a with
  | nil => exact absurd rfl h
  | cons c a => rfl

theorem tail_append {a b : Bytes} (h : a ≠ []) : (a ++ b).tail = a.tail ++ b := by
  cases a with
  | nil => exact absurd rfl h
  | cons c a => rfl

theorem expand_append (sm : Spec.Macros) (a b : List Assign) : expand sm (a ++ b) = expand sm a ++ expand sm b := by simp [expand]

/-- the rest of a line: its assignments -/
theorem assignLoop_ok {m : Macros} {sm : Spec.Macros} (hm : MRep m sm) (R : Bytes) (hR : ∀ c ∈ R.head?, c = c!"\n") (k : Nat) :
    ∀ (L : Bytes), L.length ≤ k → (∀ c ∈ L, c ≠ 10) → ∀ fuel, L.length + 1 ≤ fuel → ∀ vec as, Rep vec as →
    ∃ vec' s, assignLoop m fuel (L ++ R) vec = .ok (vec', s) ∧ nextLine s = nextLine R ∧ Rep vec' (as ++ expand sm (readAssigns L)) := by
  induction k with
  | zero =>
    intro L hk hL fuel hf vec as hr
    have : L = [] := List.length_eq_zero_iff.mp (by omega)
    subst this
    obtain ⟨n, rfl⟩ : ∃ n, fuel = n + 1 := ⟨fuel - 1, by omega⟩
    refine ⟨vec, R, ?_, rfl, ?_⟩
    · rw [List.nil_append, assignLoop, if_pos]
      cases R with
      | nil => exact .inl rfl
      | cons c R => right; rw [hR c rfl]; rfl
    · have : expand sm (readAssigns []) = [] := rfl
      rw [this, List.append_nil]; exact hr
  | succ k ih =>
    intro L hk hL fuel hf vec as hr
    cases hLn : L with
    | nil => subst hLn; exact ih [] (by simp) (by simp) fuel hf vec as hr
    | cons c0 L0 =>
      rw [← hLn]
      have hne : L ≠ [] := by rw [hLn]; simp
      have hlen : 0 < L.length := List.length_pos_iff.mpr hne
      obtain ⟨n, rfl⟩ : ∃ n, fuel = n + 1 := ⟨fuel - 1, by omega⟩
      rw [assignLoop, if_neg (by
        rw [head_append hne]
        rintro (h | h)
        · rw [hLn] at h; cases h
        · rw [hLn] at h hL
          simp at h
          exact hL c0 (by simp) h)]
      -- blanks
      obtain ⟨hb1, hb2, hb3⟩ := tw_dw (p := isBlank) L
      have hRsp : ∀ x ∈ R.head?, (isSpace x && x != c!"\n") = false := by intro x hx; rw [hR x hx]; rfl
      have hds : (L ++ R).dropWhile (fun c => isSpace c && c != c!"\n") = L.dropWhile isBlank ++ R := by
        conv => lhs; rw [hb1, List.append_assoc]
        refine (tw_append ?_ ?_).2
        · intro x hx
          have := hL x (by rw [hb1]; exact List.mem_append_left _ hx)
          have h2 := hb2 x hx
          rw [← blank_eq] at h2
          simp [h2, this]
        · intro x hx
          cases hd : L.dropWhile isBlank with
          | nil => rw [hd] at hx; exact hRsp x hx
          | cons d D =>
            rw [hd] at hx hb3
            simp only [List.cons_append, List.head?_cons, Option.mem_def, Option.some.injEq] at hx
            subst hx
            have := hb3 d rfl
            rw [← blank_eq] at this
            simp [this]
      simp only [hds]
      have hra : readAssigns L = readAssigns (L.dropWhile isBlank) := by
        conv => lhs; rw [hb1]
        exact readAssigns_blank hb2
      rw [hra]
      have hL1 : ∀ c ∈ L.dropWhile isBlank, c ≠ 10 := fun c hc => hL c (by rw [hb1]; exact List.mem_append_right _ hc)
      have hlen1 : (L.dropWhile isBlank).length ≤ L.length := (List.dropWhile_suffix _).length_le
      generalize hD : L.dropWhile isBlank = D at *
      by_cases hDn : D = []
      · -- nothing but blanks
        subst hDn
        rw [List.nil_append]
        have hh : ∀ c : UInt8, c ≠ c!"\n" → R.head? ≠ some c := by
          intro c hc h
          exact hc (hR c h)
        rw [if_neg (hh _ (by decide))]
        have hap : afterPrefix R = R := by
          unfold afterPrefix
          rw [if_neg (by rintro (h | h); exact hh _ (by decide) h; exact hh _ (by decide) h)]
        simp only [hap]
        have e1 := tw_append (p := fun c => !isSpace c && c != c!"=") (a := []) (b := R) (by simp) (by intro x hx; rw [hR x hx]; rfl)
        have e2 := tw_append (p := fun c => !isSpace c) (a := []) (b := R) (by simp) (by intro x hx; rw [hR x hx]; rfl)
        simp only [List.nil_append] at e1 e2
        rw [e1.1, e1.2, if_pos rfl, e2.2]
        have := ih [] (by simp) (by simp) n (by simp; omega) vec as hr
        simpa using this
      · obtain ⟨hw1, hw2, hw3⟩ := tw_dw (p := fun c => !isBlank c) D
        generalize hW : D.takeWhile (fun c => !isBlank c) = w at *
        generalize hE : D.dropWhile (fun c => !isBlank c) = E at *
        have hwb : ∀ c ∈ w, isBlank c = false := by intro c hc; simpa using hw2 c hc
        have hwn : w ≠ [] := by
          rintro rfl
          rw [List.nil_append] at hw1
          subst hw1
          cases D with
          | nil => exact hDn rfl
          | cons d D =>
            have h1 := hb3 d rfl
            have h2 := hw3 d rfl
            simp [h1] at h2
        have hEb : ∀ c ∈ E.head?, isBlank c = true := by intro c hc; simpa using hw3 c hc
        have hERb : ∀ c ∈ (E ++ R).head?, isSpace c = true := by
          intro c hc
          cases E with
          | nil => rw [hR c hc]; rfl
          | cons e E => exact hEb c hc
        have hE10 : ∀ c ∈ E, c ≠ 10 := fun c hc => hL1 c (by rw [hw1]; simp [hc])
        have hElen : E.length < L.length := by
          have := congrArg List.length hw1
          have := List.length_pos_iff.mpr hwn
          simp at *
          omega
        rw [hw1, readAssigns_word hwb hwn hEb, List.append_assoc, head_append hwn]
        by_cases hcm : w.head? = some c!"#"
        · rw [if_pos hcm, if_pos hcm]
          refine ⟨vec, _, rfl, ?_, ?_⟩
          · rw [← List.append_assoc, ← hw1, nextLine_append hL1]
          · have : expand sm [] = [] := rfl
            rw [this, List.append_nil]; exact hr
        · rw [if_neg hcm, if_neg hcm]
          have hap : afterPrefix (w ++ (E ++ R)) = afterPrefix w ++ (E ++ R) := by
            unfold afterPrefix
            rw [head_append hwn]
            split
            · exact tail_append hwn
            · rfl
          have hpv : prefixValue (w ++ (E ++ R)) = prefixValue w := by
            unfold prefixValue; rw [head_append hwn]
          have hrb : ∀ c ∈ afterPrefix w, isBlank c = false := by
            intro c hc
            unfold afterPrefix at hc
            split at hc
            · exact hwb c (List.mem_of_mem_tail hc)
            · exact hwb c hc
          simp only [hap, hpv]
          have hrw : readWord w = if (afterPrefix w).takeWhile (· ≠ c!"=") = [] then none
            else some ⟨(afterPrefix w).takeWhile (· ≠ c!"="), if ((afterPrefix w).dropWhile (· ≠ c!"=")).tail = [] then prefixValue w else .text ((afterPrefix w).dropWhile (· ≠ c!"=")).tail⟩ := rfl
          rw [hrw]
          generalize afterPrefix w = r at *
          obtain ⟨hq1, hq2, hq3⟩ := tw_dw (p := fun c => decide (c ≠ c!"=")) r
          generalize hN : r.takeWhile (fun c => decide (c ≠ c!"=")) = name at *
          generalize hT : r.dropWhile (fun c => decide (c ≠ c!"=")) = T at *
          have hnm : (r ++ (E ++ R)).takeWhile (fun c => !isSpace c && c != c!"=") = name ∧
              (r ++ (E ++ R)).dropWhile (fun c => !isSpace c && c != c!"=") = T ++ (E ++ R) := by
            rw [hq1, List.append_assoc]
            refine tw_append ?_ ?_
            · intro x hx
              have h1 := hrb x (by rw [hq1]; simp [hx])
              rw [← blank_eq] at h1
              have h2 := hq2 x hx
              simp at h2
              simp [h1, h2]
            · intro x hx
              cases T with
              | nil =>
                have := hERb x hx
                simp [this]
              | cons d T =>
                have := hq3 x hx
                simp at this
                simp [this]
          rw [hnm.1, hnm.2]
          have hTb : ∀ c ∈ T, isSpace c = false := by
            intro c hc
            rw [blank_eq]
            exact hrb c (by rw [hq1]; simp [hc])
          have hskip : ∀ U : Bytes, (∀ c ∈ U, isSpace c = false) → (U ++ (E ++ R)).takeWhile (fun c => !isSpace c) = U ∧ (U ++ (E ++ R)).dropWhile (fun c => !isSpace c) = E ++ R := by
            intro U hU
            refine tw_append ?_ ?_
            · intro x hx; simp [hU x hx]
            · intro x hx; simp [hERb x hx]
          by_cases hnn : name = []
          · rw [if_pos hnn, if_pos hnn, (hskip T hTb).2]
            simp only [Option.toList_none, List.nil_append]
            exact ih E (by omega) hE10 n (by omega) vec as hr
          · rw [if_neg hnn, if_neg hnn]
            have htext : (if (T ++ (E ++ R)).head? = some c!"=" then ((T ++ (E ++ R)).tail).takeWhile (fun c => !isSpace c) else []) = T.tail ∧
                (if (T ++ (E ++ R)).head? = some c!"=" then ((T ++ (E ++ R)).tail).dropWhile (fun c => !isSpace c) else T ++ (E ++ R)) = E ++ R := by
              cases T with
              | nil =>
                have : ¬ ([] ++ (E ++ R)).head? = some c!"=" := by
                  intro h
                  rw [List.nil_append] at h
                  have := hERb _ h
                  revert this; decide
                rw [if_neg this, if_neg this]
                exact ⟨rfl, rfl⟩
              | cons d T =>
                have hd : d = c!"=" := by simpa using hq3 d rfl
                subst hd
                have : (c!"=" :: T ++ (E ++ R)).head? = some c!"=" := rfl
                rw [if_pos this, if_pos this]
                exact hskip T (fun c hc => hTb c (by simp [hc]))
            rw [htext.1, htext.2]
            obtain ⟨v1, i1, i2⟩ := insert_word hm hr ⟨name, if T.tail = [] then prefixValue w else .text T.tail⟩
            simp only at i1
            rw [i1]
            simp only
            obtain ⟨v2, s, j1, j2, j3⟩ := ih E (by omega) hE10 n (by omega) v1 _ i2
            refine ⟨v2, s, j1, j2, ?_⟩
            simp only [Option.toList_some]
            rw [expand_append, ← List.append_assoc]
            exact j3

theorem parseAssigns_ok {m : Macros} {sm : Spec.Macros} (hm : MRep m sm) {L R : Bytes} (hL : ∀ c ∈ L, c ≠ 10) (hR : ∀ c ∈ R.head?, c = c!"\n") :
    ∃ vec, parseAssigns m (L ++ R) = .ok (vec, nextLine R) ∧ Rep vec (expand sm (readAssigns L)) := by
  obtain ⟨vec, s, h1, h2, h3⟩ := assignLoop_ok hm R hR L.length L (Nat.le_refl _) hL ((L ++ R).length + 1) (by simp) [] [] Rep.nil
  refine ⟨vec, ?_, by simpa using h3⟩
  unfold parseAssigns
  rw [h1]
  simp only [h2]

end Verif.Attr
