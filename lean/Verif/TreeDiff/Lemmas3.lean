import Verif.TreeDiff.Lemmas2
/-! # What the iterator does -/
namespace Verif.TreeDiff
open Spec B

/-- an item that the iterator should give -/
def Wanted (o : Opts) (x : Item) : Prop :=
  (∀ s, o.start = some s → s ≤ x.path ∨ (x.path.getLast? = some c!"/" ∧ x.path <+: s)) ∧ (∀ e, o.stop = some e → x.path ≤ e ∨ e <+: x.path) ∧
    Listed o.pathlist x.path ∧ (x.path.getLast? = some c!"/" → o.includeTrees = true)

open Classical in
/-- those of a list that the iterator should give -/
noncomputable def wanted (o : Opts) (L : List Item) : List Item := L.filter (fun x => decide (Wanted o x))

theorem wanted_cons_pos {o : Opts} {x : Item} {L : List Item} (h : Wanted o x) : wanted o (x :: L) = x :: wanted o L := by
  unfold wanted; rw [List.filter_cons_of_pos (by simp [h])]

theorem wanted_cons_neg {o : Opts} {x : Item} {L : List Item} (h : ¬ Wanted o x) : wanted o (x :: L) = wanted o L := by
  unfold wanted; rw [List.filter_cons_of_neg (by simp [h])]

theorem wanted_append {o : Opts} {K L : List Item} : wanted o (K ++ L) = wanted o K ++ wanted o L := by
  unfold wanted; rw [List.filter_append]

theorem wanted_none {o : Opts} {L : List Item} (h : ∀ x ∈ L, ¬ Wanted o x) : wanted o L = [] := by
  unfold wanted; rw [List.filter_eq_nil_iff]
  intro x hx; simp [h x hx]

structure GoodOpts (o : Opts) : Prop where
  nul : ∀ q ∈ o.pathlist, (0 : UInt8) ∉ q
  sorted : o.pathlist.Pairwise (· ≤ ·)
  clash : NoClash o.pathlist
  trees : o.autoexpand = false → o.includeTrees = true

structure Inv (store : Store) (o : Opts) (it : Iter) (L : List Item) : Prop where
  flat : Flat o.autoexpand store it.frames L
  good : ∀ f ∈ it.frames, Good store f.entries
  sorted : L.Pairwise (fun a b => a.path < b.path)
  path : ∀ x ∈ L, (0 : UInt8) ∉ x.path ∧ x.path ≠ [] ∧ x.path.head? ≠ some c!"/"
  st : it.started = true → ∀ s, o.start = some s → ∀ x ∈ L, s ≤ x.path
  en : it.ended = true → ∀ e, o.stop = some e → ∀ x ∈ L, ¬ (x.path ≤ e ∨ e <+: x.path)
  walk : ∀ q ∈ o.pathlist.take it.walk, ∀ x ∈ L, ¬ MatchP q x.path

theorem flat_cons {auto : Bool} {store : Store} {p : Bytes} {e : Entry} {es : List Entry} {fs : List Frame} {L : List Item} (h : Flat auto store (⟨p, e :: es⟩ :: fs) L) :
    ∃ S L2, L = item p e :: (S ++ L2) ∧ Flat auto store (⟨p, es⟩ :: fs) L2 ∧
      ((e.isTree = true ∧ auto = true ∧ ∃ sub, store e.id = some sub ∧ Flat auto store [⟨p ++ key e, sub⟩] S) ∨ (S = [] ∧ (e.isTree = false ∨ auto = false))) := by
  cases h with
  | file he h => exact ⟨[], _, rfl, h, Or.inr ⟨rfl, Or.inl he⟩⟩
  | shut ha he h => exact ⟨[], _, rfl, h, Or.inr ⟨rfl, Or.inr ha⟩⟩
  | dir ha he hs hS h => exact ⟨_, _, rfl, h, Or.inl ⟨he, ha, _, hs, hS⟩⟩

theorem pathlistNextIs_spec {o : Opts} (ho : GoodOpts o) {walk : Nat} {a : Bytes} (ha : (0 : UInt8) ∉ a ∧ a ≠ [] ∧ a.head? ≠ some c!"/")
    (hd : ∀ q ∈ o.pathlist.take walk, ¬ MatchP q a) :
    ((pathlistNextIs o walk a).1 = true ↔ Listed o.pathlist a) ∧
      ∀ q ∈ o.pathlist.take (pathlistNextIs o walk a).2, q ∈ o.pathlist.take walk ∨ Dead q a := by
  unfold pathlistNextIs
  split
  · rename_i h
    exact ⟨⟨fun _ => Or.inl h, fun _ => rfl⟩, fun q hq => Or.inl hq⟩
  · rename_i hne
    have hsub : ∀ q ∈ o.pathlist.drop walk, q ∈ o.pathlist := fun q hq => List.mem_of_mem_drop hq
    obtain ⟨b, k, hr, hb, hk⟩ := pathlistLoop_spec ha.1 ha.2.1 ha.2.2 (o.pathlist.drop walk) [] walk (by simpa using ho.sorted.sublist (List.drop_sublist _ _))
      (fun q hq => ho.nul q (hsub q hq)) (fun q hq a1 a2 r hr => ho.clash q (hsub q hq) a1 a2 r (hsub r hr)) (by simp)
    rw [hr]
    refine ⟨?_, ?_⟩
    · simp only
      rw [hb]
      constructor
      · rintro ⟨q, hq, hm⟩
        exact Or.inr ⟨q, hsub q hq, hm⟩
      · rintro (h | ⟨q, hq, hm⟩)
        · exact absurd h hne
        · rw [← List.take_append_drop walk o.pathlist] at hq
          rcases List.mem_append.mp hq with hq | hq
          · exact absurd hm (hd q hq)
          · exact ⟨q, hq, hm⟩
    · intro q hq
      rw [show walk + k = walk + k from rfl, List.take_add] at hq
      rcases List.mem_append.mp hq with hq | hq
      · exact Or.inl hq
      · exact Or.inr (hk q hq)

theorem take_eq_iff_prefix {a s : Bytes} : s.take a.length = a ↔ a <+: s := by
  rw [List.prefix_iff_eq_take, eq_comm]

/-- one call of `advance` -/
theorem adv {store : Store} {o : Opts} (ho : GoodOpts o) : ∀ (n : Nat) (it : Iter) (L : List Item), 2 * L.length + it.frames.length ≤ n → Inv store o it L →
    (∃ N it', (∀ fuel, N ≤ fuel → advanceLoop store o fuel it = some (.ok (it', none))) ∧ wanted o L = []) ∨
    (∃ N it' x L', (∀ fuel, N ≤ fuel → advanceLoop store o fuel it = some (.ok (it', some x))) ∧ wanted o L = x :: wanted o L' ∧ Inv store o it' L' ∧ L'.length < L.length) := by
  intro n
  induction n with
  | zero =>
    intro it L hn hI
    cases hf : it.frames with
    | cons f fs => rw [hf] at hn; simp at hn
    | nil =>
      have hfl := hI.flat
      rw [hf] at hfl
      cases hfl
      refine Or.inl ⟨1, it, ?_, rfl⟩
      intro fuel hfu
      obtain ⟨m, rfl⟩ := Nat.exists_eq_succ_of_ne_zero (show fuel ≠ 0 by omega)
      simp [advanceLoop, step, hf]
  | succ n ih =>
    intro it L hn hI
    -- what is to be done after a round that goes on
    have go : ∀ (it1 : Iter) (L1 : List Item), step store o it = .more it1 → wanted o L1 = wanted o L → 2 * L1.length + it1.frames.length ≤ n → Inv store o it1 L1 → L1.length ≤ L.length →
        (∃ N it', (∀ fuel, N ≤ fuel → advanceLoop store o fuel it = some (.ok (it', none))) ∧ wanted o L = []) ∨
        (∃ N it' x L', (∀ fuel, N ≤ fuel → advanceLoop store o fuel it = some (.ok (it', some x))) ∧ wanted o L = x :: wanted o L' ∧ Inv store o it' L' ∧ L'.length < L.length) := by
      intro it1 L1 hs hw hm hI1 hl
      rcases ih it1 L1 hm hI1 with ⟨N, it', h1, h2⟩ | ⟨N, it', x, L', h1, h2, h3, h4⟩
      · refine Or.inl ⟨N + 1, it', ?_, by rw [← hw]; exact h2⟩
        intro fuel hf
        obtain ⟨m, rfl⟩ := Nat.exists_eq_succ_of_ne_zero (show fuel ≠ 0 by omega)
        simp only [advanceLoop, hs]
        exact h1 m (by omega)
      · refine Or.inr ⟨N + 1, it', x, L', ?_, by rw [← hw]; exact h2, h3, by omega⟩
        intro fuel hf
        obtain ⟨m, rfl⟩ := Nat.exists_eq_succ_of_ne_zero (show fuel ≠ 0 by omega)
        simp only [advanceLoop, hs]
        exact h1 m (by omega)
    have hfl := hI.flat
    cases hf : it.frames with
    | nil =>
      rw [hf] at hfl
      cases hfl
      refine Or.inl ⟨1, it, ?_, rfl⟩
      intro fuel hfu
      obtain ⟨m, rfl⟩ := Nat.exists_eq_succ_of_ne_zero (show fuel ≠ 0 by omega)
      simp [advanceLoop, step, hf]
    | cons f fs =>
      obtain ⟨p, ents⟩ := f
      rw [hf] at hfl
      have hgood := hI.good
      rw [hf] at hgood
      cases ents with
      | nil =>
        have hfl' : Flat o.autoexpand store fs L := by cases hfl with | pop h => exact h
        refine go { it with frames := fs } L (by simp [step, hf]) rfl ?_ ⟨hfl', fun f h => hgood f (List.mem_cons_of_mem _ h), hI.sorted, hI.path, hI.st, hI.en, hI.walk⟩ (Nat.le_refl _)
        rw [hf] at hn
        simp only [List.length_cons] at hn ⊢
        omega
      | cons e es =>
        obtain ⟨S, L2, rfl, hfl2, hS⟩ := flat_cons hfl
        have hstep : step store o it = visit store o { it with frames := ⟨p, es⟩ :: fs } (p ++ key e) e := by
          simp only [step, hf, computePath_eq]
        have hge : Good store (e :: es) := hgood ⟨p, e :: es⟩ List.mem_cons_self
        have hgood2 : ∀ f ∈ (⟨p, es⟩ :: fs : List Frame), Good store f.entries := by
          intro f h
          rcases List.mem_cons.mp h with rfl | h
          · exact good_tail hge
          · exact hgood f (List.mem_cons_of_mem _ h)
        -- the paths
        have hx : (item p e).path = p ++ key e := rfl
        have hdir : (p ++ key e).getLast? = some c!"/" ↔ e.isTree = true := by
          have hc := (good_canonical hge).1 e List.mem_cons_self
          unfold key
          cases ht : e.isTree with
          | true => simp
          | false =>
            simp only [Bool.false_eq_true, if_false, iff_false]
            rw [List.getLast?_append]
            cases hl : e.name.getLast? with
            | none => exact absurd (List.getLast?_eq_none_iff.mp hl) hc.1
            | some c =>
              simp only [Option.some_or, Option.some.injEq]
              intro hc'
              subst hc'
              exact hc.2.1 (List.mem_of_getLast? hl)
        have hSp : ∀ y ∈ S, (p ++ key e) <+: y.path ∧ e.isTree = true := by
          intro y hy
          rcases hS with ⟨ht, _, sub, hsub, hSf⟩ | ⟨rfl, _⟩
          · obtain ⟨f, hf', q, e', _, rfl, _⟩ := flat_at hSf y hy
            rw [List.mem_singleton] at hf'
            subst hf'
            exact ⟨List.prefix_append _ _, ht⟩
          · cases hy
        have hlt : ∀ y ∈ S ++ L2, p ++ key e < y.path := (List.pairwise_cons.mp hI.sorted).1
        have hsortSL : (S ++ L2).Pairwise (fun a b => a.path < b.path) := (List.pairwise_cons.mp hI.sorted).2
        have hsort2 : L2.Pairwise (fun a b => a.path < b.path) := (List.pairwise_append.mp hsortSL).2.1
        have hpx := hI.path (item p e) List.mem_cons_self
        rw [hx] at hpx
        have mem2 : ∀ y ∈ L2, y ∈ S ++ L2 := fun y hy => List.mem_append_right _ hy
        have memS : ∀ y ∈ S ++ L2, y ∈ item p e :: (S ++ L2) := fun y hy => List.mem_cons_of_mem _ hy
        have hlen2 : 2 * L2.length + (⟨p, es⟩ :: fs : List Frame).length ≤ n := by
          rw [hf] at hn
          simp only [List.length_cons, List.length_append] at hn ⊢
          omega
        have hlenS : 2 * (S ++ L2).length + ((⟨p ++ key e, []⟩ : Frame) :: ⟨p, es⟩ :: fs).length ≤ n := by
          rw [hf] at hn
          simp only [List.length_cons, List.length_append] at hn ⊢
          omega
        -- nothing in a directory that is passed over is wanted
        have skip : ¬ Wanted o (item p e) → (∀ y ∈ S, ¬ Wanted o y) → wanted o L2 = wanted o (item p e :: (S ++ L2)) := by
          intro h1 h2
          rw [wanted_cons_neg h1, wanted_append, wanted_none h2, List.nil_append]
        have hvis : ∀ st, visit store o { it with frames := ⟨p, es⟩ :: fs } (p ++ key e) e = st → step store o it = st := fun st h => by rw [hstep, h]
        unfold visit at hvis
        simp only at hvis
        by_cases hstart : (hasStarted o it.started (p ++ key e)).1 = false
        · -- before the start
          rw [if_pos hstart] at hvis
          have hst : ∃ s, o.start = some s ∧ it.started = false ∧ ¬ s ≤ p ++ key e ∧ ¬ ((p ++ key e).getLast? = some c!"/" ∧ (p ++ key e) <+: s) ∧
              (hasStarted o it.started (p ++ key e)).2 = false := by
            unfold hasStarted at hstart ⊢
            cases hs : o.start with
            | none => rw [hs] at hstart; simp at hstart
            | some s =>
              rw [hs] at hstart
              simp only at hstart ⊢
              cases hstd : it.started with
              | true => rw [hstd] at hstart; simp at hstart
              | false =>
                rw [hstd] at hstart
                simp only [Bool.false_eq_true, if_false] at hstart ⊢
                by_cases hp : 0 ≤ prefixcmp (p ++ key e) s
                · rw [if_pos hp] at hstart; simp at hstart
                · rw [if_neg hp] at hstart ⊢
                  refine ⟨s, rfl, trivial, fun h => hp (prefixcmp_nonneg.mpr h), ?_, rfl⟩
                  simp only [decide_eq_false_iff_not] at hstart
                  rw [take_eq_iff_prefix] at hstart
                  exact hstart
          obtain ⟨s, hs, hstd, hnle, hnpre, hst2⟩ := hst
          rw [hst2] at hvis
          refine go _ L2 (hvis _ rfl) (skip ?_ ?_) hlen2 ⟨hfl2, hgood2, hsort2, fun y hy => hI.path y (memS y (mem2 y hy)), fun h => (by cases h), fun h e' he' y hy => hI.en h e' he' y (memS y (mem2 y hy)),
            fun q hq y hy => hI.walk q hq y (memS y (mem2 y hy))⟩ (by simp; omega)
          · intro hw
            rcases hw.1 s hs with h | h
            · exact hnle h
            · exact hnpre h
          · intro y hy hw
            obtain ⟨hpre, ht⟩ := hSp y hy
            have hl := hdir.mpr ht
            rcases hw.1 s hs with h | h
            · exact hnpre ⟨hl, convex' (le_of_lt (not_le.mp hnle)) h hpre⟩
            · exact hnpre ⟨hl, hpre.trans h.2⟩
        · rw [if_neg hstart] at hvis
          have hst : (∀ s, o.start = some s → s ≤ p ++ key e ∨ ((p ++ key e).getLast? = some c!"/" ∧ (p ++ key e) <+: s)) ∧
              ((hasStarted o it.started (p ++ key e)).2 = true → ∀ s, o.start = some s → s ≤ p ++ key e) := by
            unfold hasStarted at hstart ⊢
            cases hs : o.start with
            | none => exact ⟨fun s h => (by cases h), fun _ s h => (by cases h)⟩
            | some s =>
              rw [hs] at hstart
              simp only at hstart ⊢
              cases hstd : it.started with
              | true =>
                have := hI.st hstd s hs (item p e) List.mem_cons_self
                exact ⟨fun s' h => by cases h; exact Or.inl this, fun _ s' h => by cases h; exact this⟩
              | false =>
                rw [hstd] at hstart
                simp only [Bool.false_eq_true, if_false] at hstart ⊢
                by_cases hp : 0 ≤ prefixcmp (p ++ key e) s
                · have := prefixcmp_nonneg.mp hp
                  exact ⟨fun s' h => by cases h; exact Or.inl this, fun _ s' h => by cases h; exact this⟩
                · rw [if_neg hp] at hstart ⊢
                  simp only [decide_eq_false_iff_not, Classical.not_not] at hstart
                  rw [take_eq_iff_prefix] at hstart
                  exact ⟨fun s' h => by cases h; exact Or.inr hstart, fun h => by cases h⟩
          obtain ⟨hst1, hst2⟩ := hst
          have hst3 : (hasStarted o it.started (p ++ key e)).2 = true → ∀ s, o.start = some s → ∀ y ∈ S ++ L2, s ≤ y.path :=
            fun h s hs y hy => le_trans (hst2 h s hs) (le_of_lt (hlt y hy))
          generalize hstd : (hasStarted o it.started (p ++ key e)).2 = std at *
          by_cases hend : hasEnded o it.ended (p ++ key e) = true
          · -- after the end
            rw [if_pos hend] at hvis
            have hall : ∀ y ∈ item p e :: (S ++ L2), ¬ Wanted o y := by
              unfold hasEnded at hend
              cases hs : o.stop with
              | none => rw [hs] at hend; cases hend
              | some e' =>
                rw [hs] at hend
                simp only [Bool.or_eq_true, decide_eq_true_eq] at hend
                rcases hend with hend | hend
                · intro y hy hw
                  exact hI.en hend e' hs y hy (hw.2.1 e' hs)
                · have hno : ¬ (p ++ key e ≤ e' ∨ e' <+: p ++ key e) := by
                    rw [← prefixcmp_nonpos]; omega
                  have hgt : e' < p ++ key e := not_le.mp (fun h => hno (Or.inl h))
                  intro y hy hw
                  have hle : p ++ key e ≤ y.path := by
                    rcases List.mem_cons.mp hy with rfl | hy
                    · exact le_rfl
                    · exact le_of_lt (hlt y hy)
                  rcases hw.2.1 e' hs with h | h
                  · exact hno (Or.inl (le_trans hle h))
                  · exact hno (Or.inr (convex' (le_of_lt hgt) hle h))
            obtain ⟨it', hit'⟩ : ∃ it', step store o it = .over it' := ⟨_, hvis _ rfl⟩
            refine Or.inl ⟨1, it', ?_, wanted_none hall⟩
            intro fuel hfu
            obtain ⟨m, rfl⟩ := Nat.exists_eq_succ_of_ne_zero (show fuel ≠ 0 by omega)
            simp only [advanceLoop, hit']
          · rw [if_neg hend] at hvis
            rw [Bool.not_eq_true] at hend
            rw [hend] at hvis
            have hend1 : ∀ e', o.stop = some e' → p ++ key e ≤ e' ∨ e' <+: p ++ key e := by
              intro e' hs
              unfold hasEnded at hend
              rw [hs] at hend
              simp only [Bool.or_eq_false_iff, decide_eq_false_iff_not] at hend
              exact prefixcmp_nonpos.mp (by omega)
            have hpl := pathlistNextIs_spec ho hpx (walk := it.walk) (fun q hq => hI.walk q hq (item p e) List.mem_cons_self)
            generalize hfnd : pathlistNextIs o it.walk (p ++ key e) = found at *
            have hwalk : ∀ q ∈ o.pathlist.take found.2, ∀ y ∈ S ++ L2, ¬ MatchP q y.path := by
              intro q hq y hy
              rcases hpl.2 q hq with h | h
              · exact hI.walk q h y (memS y hy)
              · have := hI.path y (memS y hy)
                exact h y.path (le_of_lt (hlt y hy)) this.2.1 this.2.2
            by_cases hfound : found.1 = false
            · -- not listed
              rw [if_pos hfound] at hvis
              have hnl : ¬ Listed o.pathlist (p ++ key e) := by
                intro h; rw [hpl.1.mpr h] at hfound; cases hfound
              refine go _ L2 (hvis _ rfl) (skip (fun hw => hnl hw.2.2.1) ?_) hlen2 ⟨hfl2, hgood2, hsort2, fun y hy => hI.path y (memS y (mem2 y hy)),
                fun h s hs y hy => hst3 h s hs y (mem2 y hy), fun h => (by cases h), fun q hq y hy => hwalk q hq y (mem2 y hy)⟩ (by simp; omega)
              intro y hy hw
              obtain ⟨hpre, ht⟩ := hSp y hy
              exact hnl (listed_up hw.2.2.1 (hdir.mpr ht) hpre)
            · rw [if_neg hfound] at hvis
              have hli : Listed o.pathlist (p ++ key e) := hpl.1.mp (by simpa using hfound)
              by_cases htr : (e.isTree && !o.includeTrees) = true
              · -- a directory that is not given
                rw [if_pos htr] at hvis
                simp only [Bool.and_eq_true, Bool.not_eq_true'] at htr
                cases hau : o.autoexpand with
                | false => have := ho.trees hau; rw [htr.2] at this; cases this
                | true =>
                  rw [hau] at hvis
                  rcases hS with ⟨ht, _, sub, hsub, hSf⟩ | ⟨_, h⟩
                  · simp only [push, hsub, if_true] at hvis
                    refine go _ (S ++ L2) (hvis _ rfl) ?_ hlenS ⟨flat_append hSf hfl2, ?_, hsortSL, fun y hy => hI.path y (memS y hy), hst3, fun h => (by cases h), hwalk⟩ (by simp)
                    · rw [wanted_cons_neg]
                      intro hw
                      have := hw.2.2.2 (hdir.mpr ht)
                      rw [htr.2] at this
                      cases this
                    · intro f h
                      rcases List.mem_cons.mp h with rfl | h
                      · exact good_sub hge List.mem_cons_self ht hsub
                      · exact hgood2 f h
                  · rcases h with h | h
                    · rw [htr.1] at h; cases h
                    · rw [hau] at h; cases h
              · -- an item
                rw [if_neg htr] at hvis
                have hw : Wanted o (item p e) := by
                  refine ⟨hst1, hend1, hli, ?_⟩
                  intro h
                  have ht := hdir.mp h
                  rw [ht] at htr
                  simpa using htr
                have fin : ∀ it' L', step store o it = .item it' (item p e) → S ++ L2 = L' → Inv store o it' L' →
                    (∃ N it', (∀ fuel, N ≤ fuel → advanceLoop store o fuel it = some (.ok (it', none))) ∧ wanted o (item p e :: (S ++ L2)) = []) ∨
                    (∃ N it' x L', (∀ fuel, N ≤ fuel → advanceLoop store o fuel it = some (.ok (it', some x))) ∧ wanted o (item p e :: (S ++ L2)) = x :: wanted o L' ∧ Inv store o it' L' ∧
                      L'.length < (item p e :: (S ++ L2)).length) := by
                  intro it' L' hs hL' hI'
                  subst hL'
                  refine Or.inr ⟨1, it', item p e, S ++ L2, ?_, wanted_cons_pos hw, hI', by simp⟩
                  intro fuel hfu
                  obtain ⟨m, rfl⟩ := Nat.exists_eq_succ_of_ne_zero (show fuel ≠ 0 by omega)
                  simp only [advanceLoop, hs]
                rcases hS with ⟨ht, hau, sub, hsub, hSf⟩ | ⟨rfl, h⟩
                · simp only [push, hsub, ht, hau, Bool.and_self, if_true] at hvis
                  refine fin _ (S ++ L2) (hvis _ rfl) rfl ⟨flat_append hSf hfl2, ?_, hsortSL, fun y hy => hI.path y (memS y hy), hst3, fun h => (by cases h), hwalk⟩
                  intro f h
                  rcases List.mem_cons.mp h with rfl | h
                  · exact good_sub hge List.mem_cons_self ht hsub
                  · exact hgood2 f h
                · have : (e.isTree && o.autoexpand) = false := by
                    rcases h with h | h
                    · rw [h]; rfl
                    · rw [h, Bool.and_false]
                  simp only [this, Bool.false_eq_true, if_false] at hvis
                  exact fin _ L2 (hvis _ rfl) rfl ⟨hfl2, hgood2, hsort2, fun y hy => hI.path y (memS y hy), hst3, fun h => (by cases h), hwalk⟩

end Verif.TreeDiff
