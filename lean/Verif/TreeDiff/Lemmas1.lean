import Verif.TreeDiff.Spec
import Verif.CmpPrefix
/-! # The order of paths, and trees as lists -/
namespace Verif.TreeDiff
open Spec B

theorem prefixcmp_zero {s p : Bytes} : prefixcmp s p = 0 ↔ p <+: s := by
  induction p generalizing s with
  | nil => simp [prefixcmp]
  | cons c p ih =>
    cases s with
    | nil => simp [prefixcmp]
    | cons d s =>
      simp only [prefixcmp, List.cons_prefix_cons]
      by_cases h : d = c
      · rw [if_pos h, ih]; exact ⟨fun h' => ⟨h.symm, h'⟩, fun h' => h'.2⟩
      · rw [if_neg h]
        constructor
        · split <;> intro h' <;> omega
        · intro h'; exact absurd h'.1.symm h

theorem u8_lt_of {a b : UInt8} (h1 : ¬ a < b) (h2 : a ≠ b) : b < a := by
  rw [UInt8.lt_iff_toNat_lt] at *
  have : a.toNat ≠ b.toNat := fun h => h2 (UInt8.toNat_inj.mp h)
  omega

theorem u8_not_lt {a b : UInt8} (h : a < b) : ¬ b < a := by
  rw [UInt8.lt_iff_toNat_lt] at *
  omega

theorem u8_irrefl {a : UInt8} : ¬ a < a := by rw [UInt8.lt_iff_toNat_lt]; omega

theorem prefixcmp_nonneg {s p : Bytes} : 0 ≤ prefixcmp s p ↔ p ≤ s := by
  rw [← bcmp_le]
  induction p generalizing s with
  | nil => cases s <;> simp [prefixcmp, bcmp]
  | cons c p ih =>
    cases s with
    | nil => simp [prefixcmp, bcmp]
    | cons d s =>
      simp only [prefixcmp, bcmp]
      by_cases h : d = c
      · subst h
        rw [if_pos rfl, if_neg u8_irrefl, if_neg u8_irrefl, ih]
      · rw [if_neg h]
        by_cases h' : d < c
        · rw [if_pos h', if_neg (u8_not_lt h'), if_pos h']
          omega
        · rw [if_neg h', if_pos (u8_lt_of h' h)]
          omega

theorem prefixcmp_nonpos {s p : Bytes} : prefixcmp s p ≤ 0 ↔ s ≤ p ∨ p <+: s := by
  rw [← bcmp_le]
  induction p generalizing s with
  | nil => cases s <;> simp [prefixcmp, bcmp]
  | cons c p ih =>
    cases s with
    | nil => simp [prefixcmp, bcmp]
    | cons d s =>
      simp only [prefixcmp, bcmp, List.cons_prefix_cons]
      by_cases h : d = c
      · subst h
        rw [if_pos rfl, if_neg u8_irrefl, if_neg u8_irrefl, ih]
        simp
      · rw [if_neg h]
        by_cases h' : d < c
        · rw [if_pos h', if_pos h']
          exact ⟨fun _ => Or.inl (by omega), fun _ => by omega⟩
        · rw [if_neg h', if_neg h', if_pos (u8_lt_of h' h)]
          constructor
          · intro h'; omega
          · rintro (h' | h')
            · omega
            · exact absurd h'.1.symm h

/-- the first difference decides -/
theorem append_lt {a b : Bytes} (h : a < b) (h' : ¬ a <+: b) (s t : Bytes) : a ++ s < b ++ t := by
  rw [← bcmp_lt] at *
  induction a generalizing b with
  | nil => exact absurd List.nil_prefix h'
  | cons x a ih =>
    cases b with
    | nil => simp [bcmp] at h
    | cons y b =>
      simp only [List.cons_append, bcmp] at *
      by_cases h1 : x < y
      · rw [if_pos h1]; omega
      · rw [if_neg h1] at h ⊢
        by_cases h2 : y < x
        · rw [if_pos h2] at h; omega
        · rw [if_neg h2] at h ⊢
          have : x = y := Classical.byContradiction fun hne => h2 (u8_lt_of h1 hne)
          subst this
          exact ih h (fun hp => h' (List.cons_prefix_cons.mpr ⟨rfl, hp⟩))

theorem lt_append {a : Bytes} {t : Bytes} (ht : t ≠ []) : a < a ++ t := by
  rw [← bcmp_lt]
  have := bcmp_append_left a [] t
  rw [List.append_nil] at this
  rw [this]
  cases t with
  | nil => exact absurd rfl ht
  | cons c t => simp [bcmp]

theorem append_lt_left {a s t : Bytes} (h : s < t) : a ++ s < a ++ t := by
  rw [← bcmp_lt, bcmp_append_left, bcmp_lt]
  exact h

theorem computePath_eq (p : Bytes) (e : Entry) : computePath p e = p ++ key e := by
  unfold computePath key
  cases e.isTree <;> simp

/-! ## A tree as a list -/

/-- the item of an entry -/
def item (p : Bytes) (e : Entry) : Item := ⟨p ++ key e, e.mode, e.id⟩

/-- what is left in a stack of frames, all directories in the order they are visited, with what is in them if they are opened (`auto`) -/
inductive Flat (auto : Bool) (store : Store) : List Frame → List Item → Prop where
  | nil : Flat auto store [] []
  | pop {p : Bytes} {fs : List Frame} {L : List Item} : Flat auto store fs L → Flat auto store (⟨p, []⟩ :: fs) L
  | file {p : Bytes} {e : Entry} {es : List Entry} {fs : List Frame} {L : List Item} : e.isTree = false → Flat auto store (⟨p, es⟩ :: fs) L →
      Flat auto store (⟨p, e :: es⟩ :: fs) (item p e :: L)
  | dir {p : Bytes} {e : Entry} {es sub : List Entry} {fs : List Frame} {S L : List Item} : auto = true → e.isTree = true → store e.id = some sub →
      Flat auto store [⟨p ++ key e, sub⟩] S → Flat auto store (⟨p, es⟩ :: fs) L → Flat auto store (⟨p, e :: es⟩ :: fs) (item p e :: (S ++ L))
  | shut {p : Bytes} {e : Entry} {es : List Entry} {fs : List Frame} {L : List Item} : auto = false → e.isTree = true →
      Flat auto store (⟨p, es⟩ :: fs) L → Flat auto store (⟨p, e :: es⟩ :: fs) (item p e :: L)

variable {auto : Bool} {store : Store}

theorem flat_append {f1 : List Frame} {L1 : List Item} (h : Flat auto store f1 L1) : ∀ {f2 : List Frame} {L2 : List Item}, Flat auto store f2 L2 →
    Flat auto store (f1 ++ f2) (L1 ++ L2) := by
  induction h with
  | nil => intro f2 L2 h2; exact h2
  | pop _ ih => intro f2 L2 h2; exact .pop (ih h2)
  | file he _ ih => intro f2 L2 h2; exact .file he (ih h2)
  | dir ha he hs hS _ _ ih =>
    intro f2 L2 h2
    have := Flat.dir ha he hs hS (ih h2)
    rw [← List.append_assoc] at this
    exact this
  | shut ha he _ ih => intro f2 L2 h2; exact .shut ha he (ih h2)

theorem flat_exists {es : List Entry} (h : Good store es) : ∀ p, ∃ L, Flat auto store [⟨p, es⟩] L := by
  induction h with
  | @mk es hc hs hg ih =>
    clear hc hg
    induction es with
    | nil => intro p; exact ⟨[], .pop .nil⟩
    | cons e es ihl =>
      intro p
      obtain ⟨L, hL⟩ := ihl (fun d hd => hs d (List.mem_cons_of_mem _ hd)) (fun d hd => ih d (List.mem_cons_of_mem _ hd)) p
      cases he : e.isTree with
      | false => exact ⟨_, .file he hL⟩
      | true =>
        cases ha : auto with
        | false => subst ha; exact ⟨_, .shut rfl he hL⟩
        | true =>
          subst ha
          cases hsub : store e.id with
          | none => exact absurd hsub (hs e List.mem_cons_self he)
          | some sub =>
            obtain ⟨S, hS⟩ := ih e List.mem_cons_self he sub hsub (p ++ key e)
            exact ⟨_, .dir rfl he hsub hS hL⟩

/-- what is in the list is in the trees -/
theorem flat_at {fs : List Frame} {L : List Item} (h : Flat auto store fs L) :
    ∀ x ∈ L, ∃ f ∈ fs, ∃ q e, At store f.entries q e ∧ x = ⟨f.path ++ q, e.mode, e.id⟩ ∧ (auto = false → e ∈ f.entries ∧ q = key e) := by
  have up : ∀ {p : Bytes} {e : Entry} {es : List Entry} {fs : List Frame} {x : Item},
      (∃ f ∈ (⟨p, es⟩ :: fs : List Frame), ∃ q e, At store f.entries q e ∧ x = ⟨f.path ++ q, e.mode, e.id⟩ ∧ (auto = false → e ∈ f.entries ∧ q = key e)) →
      ∃ f ∈ (⟨p, e :: es⟩ :: fs : List Frame), ∃ q e, At store f.entries q e ∧ x = ⟨f.path ++ q, e.mode, e.id⟩ ∧ (auto = false → e ∈ f.entries ∧ q = key e) := by
    intro p e es fs x ⟨f, hf, q, e', hat, hx, ha⟩
    rcases List.mem_cons.mp hf with rfl | hf
    · refine ⟨⟨p, e :: es⟩, List.mem_cons_self, q, e', ?_, hx, fun h => ⟨List.mem_cons_of_mem _ (ha h).1, (ha h).2⟩⟩
      cases hat with
      | here h => exact .here (List.mem_cons_of_mem _ h)
      | inside h1 h2 h3 h4 => exact .inside (List.mem_cons_of_mem _ h1) h2 h3 h4
    · exact ⟨f, List.mem_cons_of_mem _ hf, q, e', hat, hx, ha⟩
  have self : ∀ {p : Bytes} {e : Entry} {es : List Entry} {fs : List Frame},
      ∃ f ∈ (⟨p, e :: es⟩ :: fs : List Frame), ∃ q e', At store f.entries q e' ∧ item p e = ⟨f.path ++ q, e'.mode, e'.id⟩ ∧ (auto = false → e' ∈ f.entries ∧ q = key e') :=
    fun {p e es fs} => ⟨⟨p, e :: es⟩, List.mem_cons_self, key e, e, .here List.mem_cons_self, rfl, fun _ => ⟨List.mem_cons_self, rfl⟩⟩
  induction h with
  | nil => intro x hx; cases hx
  | pop _ ih =>
    intro x hx
    obtain ⟨f, hf, r⟩ := ih x hx
    exact ⟨f, List.mem_cons_of_mem _ hf, r⟩
  | file he _ ih =>
    intro x hx
    rcases List.mem_cons.mp hx with rfl | hx
    · exact self
    · exact up (ih x hx)
  | shut ha he _ ih =>
    intro x hx
    rcases List.mem_cons.mp hx with rfl | hx
    · exact self
    · exact up (ih x hx)
  | @dir p e es sub fs S L ha he hs hS hL ihS ihL =>
    intro x hx
    rcases List.mem_cons.mp hx with rfl | hx
    · exact self
    · rcases List.mem_append.mp hx with hx | hx
      · obtain ⟨f, hf, q, e', hat, hx, _⟩ := ihS x hx
        rw [List.mem_singleton] at hf
        subst hf
        refine ⟨⟨p, e :: es⟩, List.mem_cons_self, e.name ++ b!"/" ++ q, e', .inside List.mem_cons_self he hs hat, ?_, fun h => by rw [ha] at h; cases h⟩
        rw [hx]
        simp [key, he]
      · exact up (ihL x hx)

/-- what is in the trees is in the list -/
theorem at_flat {fs : List Frame} {L : List Item} (h : Flat true store fs L) :
    ∀ f ∈ fs, ∀ q e, At store f.entries q e → (⟨f.path ++ q, e.mode, e.id⟩ : Item) ∈ L := by
  induction h with
  | nil => intro f hf; cases hf
  | pop _ ih =>
    intro f hf q e hat
    rcases List.mem_cons.mp hf with rfl | hf
    · cases hat with
      | here h => cases h
      | inside h => cases h
    · exact ih f hf q e hat
  | @file p e es fs L he _ ih =>
    intro f hf q e' hat
    rcases List.mem_cons.mp hf with rfl | hf
    · cases hat with
      | here h =>
        rcases List.mem_cons.mp h with rfl | h
        · exact List.mem_cons_self
        · exact List.mem_cons_of_mem _ (ih ⟨p, es⟩ List.mem_cons_self _ _ (.here h))
      | inside h1 h2 h3 h4 =>
        rcases List.mem_cons.mp h1 with rfl | h1
        · rw [he] at h2; cases h2
        · exact List.mem_cons_of_mem _ (ih ⟨p, es⟩ List.mem_cons_self _ _ (.inside h1 h2 h3 h4))
    · exact List.mem_cons_of_mem _ (ih f (List.mem_cons_of_mem _ hf) q e' hat)
  | shut ha => cases ha
  | @dir p e es sub fs S L ha he hs hS hL ihS ihL =>
    intro f hf q e' hat
    rcases List.mem_cons.mp hf with rfl | hf
    · cases hat with
      | here h =>
        rcases List.mem_cons.mp h with rfl | h
        · exact List.mem_cons_self
        · exact List.mem_cons_of_mem _ (List.mem_append_right _ (ihL ⟨p, es⟩ List.mem_cons_self _ _ (.here h)))
      | inside h1 h2 h3 h4 =>
        rcases List.mem_cons.mp h1 with rfl | h1
        · rw [hs] at h3
          cases h3
          have := ihS _ List.mem_cons_self _ _ h4
          refine List.mem_cons_of_mem _ (List.mem_append_left _ ?_)
          simpa [key, he] using this
        · exact List.mem_cons_of_mem _ (List.mem_append_right _ (ihL ⟨p, es⟩ List.mem_cons_self _ _ (.inside h1 h2 h3 h4)))
    · exact List.mem_cons_of_mem _ (List.mem_append_right _ (ihL f (List.mem_cons_of_mem _ hf) q e' hat))

theorem at_shut {fs : List Frame} {L : List Item} (h : Flat false store fs L) : ∀ f ∈ fs, ∀ e ∈ f.entries, item f.path e ∈ L := by
  induction h with
  | nil => intro f hf; cases hf
  | pop _ ih =>
    intro f hf e he
    rcases List.mem_cons.mp hf with rfl | hf
    · cases he
    · exact ih f hf e he
  | @file p e es fs L he _ ih =>
    intro f hf e' he'
    rcases List.mem_cons.mp hf with rfl | hf
    · rcases List.mem_cons.mp he' with rfl | h
      · exact List.mem_cons_self
      · exact List.mem_cons_of_mem _ (ih ⟨p, es⟩ List.mem_cons_self _ h)
    · exact List.mem_cons_of_mem _ (ih f (List.mem_cons_of_mem _ hf) e' he')
  | @shut p e es fs L _ he _ ih =>
    intro f hf e' he'
    rcases List.mem_cons.mp hf with rfl | hf
    · rcases List.mem_cons.mp he' with rfl | h
      · exact List.mem_cons_self
      · exact List.mem_cons_of_mem _ (ih ⟨p, es⟩ List.mem_cons_self _ h)
    · exact List.mem_cons_of_mem _ (ih f (List.mem_cons_of_mem _ hf) e' he')
  | dir ha => cases ha

theorem good_tail {e : Entry} {es : List Entry} (h : Good store (e :: es)) : Good store es := by
  cases h with
  | mk hc hs hg =>
    exact .mk ⟨fun x hx => hc.1 x (List.mem_cons_of_mem _ hx), (List.pairwise_cons.mp hc.2).2⟩ (fun d hd => hs d (List.mem_cons_of_mem _ hd))
      (fun d hd => hg d (List.mem_cons_of_mem _ hd))

theorem good_canonical {es : List Entry} (h : Good store es) : Canonical es := by cases h with | mk hc _ _ => exact hc

theorem good_sub {es sub : List Entry} {d : Entry} (h : Good store es) (hd : d ∈ es) (ht : d.isTree = true) (hs : store d.id = some sub) : Good store sub := by
  cases h with | mk _ _ hg => exact hg d hd ht sub hs

theorem key_ne {es : List Entry} (h : Canonical es) {e : Entry} (he : e ∈ es) : key e ≠ [] ∧ (key e).head? ≠ some c!"/" ∧ (0 : UInt8) ∉ key e := by
  have ⟨h1, h2, h3⟩ := h.1 e he
  unfold key
  cases hn : e.name with
  | nil => exact absurd hn h1
  | cons c t =>
    rw [hn] at h2 h3
    have : c ≠ c!"/" := fun h => h2 (by simp [h])
    split
    · refine ⟨by simp, by simpa using this, ?_⟩
      intro h0
      rcases List.mem_append.mp h0 with h0 | h0
      · exact h3 h0
      · simp at h0
    · exact ⟨by simp, by simpa using this, h3⟩

/-- the paths in a tree -/
theorem at_path {es : List Entry} (hg : Good store es) {q : Bytes} {e : Entry} (h : At store es q e) :
    q ≠ [] ∧ q.head? ≠ some c!"/" ∧ (0 : UInt8) ∉ q ∧ (e.isTree = true ↔ q.getLast? = some c!"/") ∧ ∃ d ∈ es, key d <+: q ∧ (q = key d ∨ d.isTree = true) := by
  induction h with
  | @here es e he =>
    have hc := good_canonical hg
    have ⟨h1, h2, h3⟩ := key_ne hc he
    refine ⟨h1, h2, h3, ?_, e, he, List.prefix_rfl, Or.inl rfl⟩
    unfold key
    cases ht : e.isTree with
    | true => simp
    | false =>
      simp only [Bool.false_eq_true, if_false, false_iff]
      intro hl
      exact (hc.1 e he).2.1 (List.mem_of_getLast? hl)
  | @inside es sub d e p hd ht hs hat ih =>
    have hc := good_canonical hg
    obtain ⟨h1, h2, h3, h4, h5⟩ := ih (good_sub hg hd ht hs)
    have hk := key_ne hc hd
    simp only [key, ht, if_true] at hk
    refine ⟨by simp, ?_, ?_, ?_, d, hd, ?_, Or.inr ht⟩
    · rw [List.head?_append]
      cases hh : (d.name ++ b!"/").head? with
      | none => simp at hh
      | some c => simpa [hh] using hk.2.1
    · intro h0
      rcases List.mem_append.mp h0 with h0 | h0
      · exact hk.2.2 h0
      · exact h3 h0
    · rw [h4, List.getLast?_append]
      cases hp : p.getLast? with
      | none => exact absurd (List.getLast?_eq_none_iff.mp hp) h1
      | some c => simp
    · simp [key, ht]

/-- the keys of two entries: neither begins the other's, if it is a directory -/
theorem key_not_prefix {es : List Entry} (hc : Canonical es) {d e : Entry} (hd : d ∈ es) (he : e ∈ es) (ht : d.isTree = true) (hlt : key d < key e) : ¬ key d <+: key e := by
  intro hp
  have hne : key d ≠ key e := ne_of_lt hlt
  simp only [key, ht, if_true] at hp hne
  obtain ⟨t, ht'⟩ := hp
  have hes := (hc.1 e he).2.1
  by_cases het : e.isTree = true
  · rw [if_pos het] at ht' hne
    rcases List.eq_nil_or_concat t with rfl | ⟨t', c, rfl⟩
    · rw [List.append_nil] at ht'
      exact hne ht'
    · rw [List.concat_eq_append, ← List.append_assoc] at ht'
      have := (List.append_inj' ht' (by simp)).1
      exact hes (by rw [← this]; simp)
  · rw [if_neg het] at ht'
    exact hes (by rw [← ht']; simp)

theorem flat_sorted {fs : List Frame} {L : List Item} (h : Flat auto store fs L) : ∀ p es, fs = [⟨p, es⟩] → Good store es → L.Pairwise (fun a b => a.path < b.path) := by
  have aux : ∀ {p : Bytes} {e : Entry} {es : List Entry} {L : List Item}, Good store (e :: es) → Flat auto store [⟨p, es⟩] L → ∀ y ∈ L, ∀ s, (s = [] ∨ e.isTree = true) →
      p ++ key e ++ s < y.path := by
    intro p e es L hg hL y hy s hs
    obtain ⟨f, hf, q, e', hat, rfl, _⟩ := flat_at hL y hy
    rw [List.mem_singleton] at hf
    subst hf
    obtain ⟨_, _, _, _, d, hd, ⟨t, hpre⟩, hor⟩ := at_path (good_tail hg) hat
    have hlt : key e < key d := (List.pairwise_cons.mp (good_canonical hg).2).1 d hd
    simp only
    rw [List.append_assoc]
    refine append_lt_left ?_
    rw [← hpre]
    rcases hs with rfl | ht
    · rw [List.append_nil]
      exact lt_of_lt_of_le hlt (B.prefix_le (List.prefix_append _ _))
    · exact append_lt hlt (key_not_prefix (good_canonical hg) List.mem_cons_self (List.mem_cons_of_mem _ hd) ht hlt) _ _
  induction h with
  | nil => intro p es h; cases h
  | pop h _ =>
    intro p es hf hg
    cases hf
    cases h
    exact List.Pairwise.nil
  | file he h ih =>
    intro p es hf hg
    cases hf
    refine List.pairwise_cons.mpr ⟨fun y hy => ?_, ih _ _ rfl (good_tail hg)⟩
    simpa [item] using aux hg h y hy [] (Or.inl rfl)
  | shut ha he h ih =>
    intro p es hf hg
    cases hf
    refine List.pairwise_cons.mpr ⟨fun y hy => ?_, ih _ _ rfl (good_tail hg)⟩
    simpa [item] using aux hg h y hy [] (Or.inl rfl)
  | @dir p' e es' sub fs S L ha he hs hS hL ihS ihL =>
    intro p es hf hg
    cases hf
    have hgs := good_sub hg List.mem_cons_self he hs
    have hSp : ∀ x ∈ S, ∃ q, q ≠ [] ∧ x.path = p' ++ key e ++ q := by
      intro x hx
      obtain ⟨f, hf, q, e', hat, rfl, _⟩ := flat_at hS x hx
      rw [List.mem_singleton] at hf
      subst hf
      exact ⟨q, (at_path hgs hat).1, rfl⟩
    refine List.pairwise_cons.mpr ⟨fun y hy => ?_, List.pairwise_append.mpr ⟨ihS _ _ rfl hgs, ihL _ _ rfl (good_tail hg), ?_⟩⟩
    · rcases List.mem_append.mp hy with hy | hy
      · obtain ⟨q, hq, h⟩ := hSp y hy
        simp only [item]
        rw [h]
        exact lt_append hq
      · simpa [item] using aux hg hL y hy [] (Or.inl rfl)
    · intro x hx y hy
      obtain ⟨q, _, h⟩ := hSp x hx
      rw [h]
      exact aux hg hL y hy q (Or.inr he)

end Verif.TreeDiff
