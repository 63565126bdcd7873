import Verif.RefName.LemmasLoop
/-! # C15: reference names -/
namespace Verif.RefName
open Spec

theorem segs_valid (norm pat : Bool) (name : Bytes) (h0 : name.head? ≠ some c!"/") : Segs norm pat true (components name) ↔
    (∀ c ∈ uncaret name, Plain c) ∧ ¬ Occurs b!".." name ∧ ¬ Occurs b!"@{" name ∧ (name.count c!"*" ≤ if pat then 1 else 0) ∧
    (∀ k ∈ components name, k.head? ≠ some c!".") ∧ (∀ k ∈ components name, ¬ ∃ a, k = a ++ b!".lock") ∧
    (norm = true ∨ ∀ k ∈ components name, k ≠ []) := by
  have hd := occurs_components (x := c!".") (y := c!".") (by decide) (by decide) name
  have ha := occurs_components (x := c!"@") (y := c!"{") (by decide) (by decide) name
  have hcount := count_components name
  cases hk : components name with
  | nil => exact absurd hk (components_ne name)
  | cons k ks =>
    rw [hk] at hd ha hcount
    rw [segs_first, plain_components name h0 k ks hk, hd, ha, hcount]
    constructor
    · rintro ⟨h1, h2, h3, h4⟩
      refine ⟨⟨h2, h3⟩, ?_, ?_, h4, fun k' hk' => (h1 k' hk').1, fun k' hk' => (h1 k' hk').2.2.2.1, ?_⟩
      · rintro ⟨k', hk', h⟩; exact (h1 k' hk').2.1 h
      · rintro ⟨k', hk', h⟩; exact (h1 k' hk').2.2.1 h
      · cases norm
        · exact .inr (fun k' hk' => ((h1 k' hk').2.2.2.2).resolve_left (by simp))
        · exact .inl rfl
    · rintro ⟨⟨h2, h3⟩, h5, h6, h4, h7, h8, h9⟩
      refine ⟨fun k' hk' => ⟨h7 k' hk', fun h => h5 ⟨k', hk', h⟩, fun h => h6 ⟨k', hk', h⟩, h8 k' hk', ?_⟩, h2, h3, h4⟩
      rcases h9 with h9 | h9
      · exact .inl h9
      · exact .inr (h9 k' hk')

open Classical in
theorem normalize_eq (norm : Bool) (name : Bytes) (fl : Flags) (hv : fl.noValidation = false) :
    normalize norm name fl = if Valid fl.onelevel fl.pattern fl.shorthand name ∧ (norm = true ∨ ∀ k ∈ components name, k ≠ []) then
      .ok (if norm then squeeze name else []) else .err EINVALIDSPEC := by
  unfold normalize
  rw [if_neg (by simp [hv])]
  by_cases h0 : name.head? = some c!"/"
  · rw [if_pos h0, if_neg (fun h => h.1.noSlashFirst h0)]
  rw [if_neg h0, loop_eq norm name none fl.pattern true [] 0 (fun _ => by simp) (fun _ => by simp)]
  by_cases hS : Segs norm fl.pattern true (components name)
  case neg =>
    rw [if_neg hS]
    have : ¬ (Valid fl.onelevel fl.pattern fl.shorthand name ∧ (norm = true ∨ ∀ k ∈ components name, k ≠ [])) := by
      rintro ⟨h, h9⟩
      exact hS ((segs_valid _ _ _ h0).mpr ⟨h.plain, h.noDotDot, h.noAtBrace, h.stars, h.noDotFirst, h.noLock, h9⟩)
    rw [if_neg this]
  rw [if_pos hS]
  obtain ⟨hplain, hdd, hab, hst, hdf, hlock, hne⟩ := (segs_valid _ _ _ h0).mp hS
  simp only [Nat.zero_add]
  have hlast := getLast?_comp name
  by_cases hl : lastComp name = []
  · by_cases hm : c!"/" ∈ name
    · -- a trailing slash
      rw [if_pos hl, if_pos hm] at hlast
      rw [if_neg (c := Valid _ _ _ name ∧ _) (fun h => h.1.noSlashLast hlast)]
      simp only [hl, hm, List.length_nil, decide_true, Bool.true_and, if_true]
      split
      · rfl
      · rw [if_neg (by decide)]
    · -- the empty name
      rw [lastComp_one hm] at hl
      subst hl
      rw [if_neg (c := Valid _ _ _ [] ∧ _) (fun h => h.1.nonempty rfl)]
      simp [lastComp_one hm, components_one hm, cnt]
  · rw [if_neg hl] at hlast
    have hlen : ¬ (lastComp name).length = 0 := by simpa using hl
    have hn : name ≠ [] := by
      rintro rfl
      exact hl (lastComp_one (by simp))
    simp only [hlen, decide_false, Bool.false_and, Bool.false_eq_true, if_false]
    rw [getElem?_last _ hl, ← hlast]
    cases hg : name.getLast? with
    | none => exact absurd (List.getLast?_eq_none_iff.mp hg) hn
    | some last =>
    simp only []
    by_cases hdot : last = c!"."
    · rw [if_pos hdot, if_neg (c := Valid _ _ _ name ∧ _) (fun h => h.1.noDotLast (by rw [hg, hdot]))]
    rw [if_neg hdot]
    by_cases hsl : last = c!"/"
    · rw [if_pos hsl, if_neg (c := Valid _ _ _ name ∧ _) (fun h => h.1.noSlashLast (by rw [hg, hsl]))]
    rw [if_neg hsl]
    have hls : name.getLast? ≠ some c!"/" := by rw [hg]; simpa using hsl
    have hld : name.getLast? ≠ some c!"." := by rw [hg]; simpa using hdot
    by_cases hm : c!"/" ∈ name
    · -- several levels
      obtain ⟨k, r, rfl, hk⟩ := (comp_cases name).resolve_left (fun h => h hm)
      have hkne : k ≠ [] := by rintro rfl; exact h0 rfl
      have hr := getLast?_more hls
      have hcnt : 1 < cnt (components (k ++ c!"/" :: r)) := by
        rw [lastComp_more hk] at hl
        rw [components_more hk]
        have := cnt_pos hl
        unfold cnt at *
        rw [List.countP_cons]
        simp only [List.isEmpty_eq_false_iff.mpr hkne, Bool.not_false, if_true]
        omega
      have htw : (k ++ c!"/" :: r).takeWhile (· != c!"/") = k := by
        apply takeWhile_append_stop
        · intro x hx
          simp only [bne_iff_ne, ne_eq]
          rintro rfl
          exact hk hx
        · intro x hx
          simp only [List.head?_cons, Option.some.injEq] at hx
          simp [← hx]
      have hne1 : ¬ cnt (components (k ++ c!"/" :: r)) = 1 := by omega
      simp only [hne1, hcnt, decide_false, Bool.false_and, Bool.false_eq_true, if_false, decide_true, Bool.true_and, htw]
      by_cases ht : TopLevel k
      · rw [if_pos ((topLevel_iff k _ hkne).mpr ht), if_neg (c := Valid _ _ _ _ ∧ _) (fun h => h.1.manyLevels hm (by rw [htw]; exact ht))]
      · have hV : Valid fl.onelevel fl.pattern fl.shorthand (k ++ c!"/" :: r) ∧
            (norm = true ∨ ∀ k' ∈ components (k ++ c!"/" :: r), k' ≠ []) :=
          ⟨⟨hn, h0, hls, hld, hplain, hdd, hab, hst, hdf, hlock, fun h => absurd hm h, fun _ => by rw [htw]; exact ht⟩, hne⟩
        rw [if_neg (fun h => ht ((topLevel_iff k _ hkne).mp h)), if_pos hV]
        cases norm
        · rfl
        · simp only [if_true]
          rw [foldl_empty _ hn h0 hls]
    · -- one level
      rw [lastComp_one hm, components_one hm]
      have hcnt : cnt [name] = 1 := by simp [cnt, hn]
      simp only [hcnt, decide_true, Bool.true_and, Nat.lt_irrefl, decide_false, Bool.false_and, Bool.false_eq_true, if_false]
      have htop := topLevel_iff name [] hn
      rw [List.append_nil] at htop
      by_cases ho : fl.onelevel = true
      case neg =>
        rw [if_pos (by simpa using ho), if_neg (c := Valid _ _ _ _ ∧ _) (fun h => ho (h.1.oneLevel hm).1)]
      rw [if_neg (by simpa using ho)]
      by_cases hs : fl.shorthand = true ∨ TopLevel name ∨ (fl.pattern = true ∧ name = b!"*")
      · have hV : Valid fl.onelevel fl.pattern fl.shorthand name ∧ (norm = true ∨ ∀ k' ∈ [name], k' ≠ []) :=
          ⟨⟨hn, h0, hls, hld, hplain, hdd, hab, hst, hdf, hlock, fun _ => ⟨ho, hs⟩, fun h => absurd h hm⟩, by
            rw [components_one hm] at hne; exact hne⟩
        rw [if_pos hV, if_neg]
        · cases norm
          · rfl
          · simp only [if_true]
            rw [← components_one hm, foldl_empty _ hn h0 hls]
        · rw [← htop] at hs
          rcases hs with h | h | ⟨h, h'⟩
          · simp [h]
          · simp [h]
          · simp [h, h']
      · rw [if_neg (c := Valid _ _ _ _ ∧ _) (fun h => hs (h.1.oneLevel hm).2), if_pos]
        rw [← htop] at hs
        simp only [not_or, Bool.not_eq_true, not_and] at hs
        obtain ⟨h1, h2, h3⟩ := hs
        cases hp : fl.pattern
        · simp [h1, h2]
        · simp [h1, h2, h3 hp]

/-! ### the normal form -/

theorem components_snoc (a k : Bytes) (hk : c!"/" ∉ k) : components (a ++ c!"/" :: k) = components a ++ [k] := by
  induction a using comp_induction with
  | one x h => rw [components_more h, components_one h, components_one hk]; rfl
  | more x r h ih => rw [List.append_assoc, List.cons_append, components_more h, ih, components_more h]; rfl

theorem components_noslash (name : Bytes) : ∀ k ∈ components name, c!"/" ∉ k := by
  induction name using comp_induction with
  | one k h => rw [components_one h]; simpa using h
  | more k r h ih => rw [components_more h]; simpa using ⟨h, ih⟩

theorem components_foldl (ks : List Bytes) (hs : ∀ k ∈ ks, c!"/" ∉ k) (buf : Bytes) (hb : buf ≠ []) :
    components (ks.foldl addComp buf) = components buf ++ ks.filter (fun k => !k.isEmpty) := by
  induction ks generalizing buf with
  | nil => simp
  | cons k ks ih =>
    rw [List.foldl_cons]
    have hk := hs k List.mem_cons_self
    have hks := fun k' hk' => hs k' (List.mem_cons_of_mem _ hk')
    by_cases e : k = []
    · subst e
      simp only [addComp, if_true]
      rw [ih hks buf hb]
      simp
    · have : addComp buf k = buf ++ c!"/" :: k := by simp [addComp, e, hb]
      rw [this, ih hks _ (by simp), components_snoc _ _ hk]
      simp [e]

theorem components_squeeze (name : Bytes) (hc : name ≠ []) (h0 : name.head? ≠ some c!"/") (hl : name.getLast? ≠ some c!"/") :
    components (squeeze name) = (components name).filter (fun k => !k.isEmpty) := by
  rw [← foldl_empty name hc h0 hl]
  have hs := components_noslash name
  rcases comp_cases name with h | ⟨k, r, rfl, h⟩
  · rw [components_one h]
    simp [addComp, hc, components_one h]
  · have hne : k ≠ [] := by rintro rfl; exact h0 rfl
    rw [components_more h] at hs ⊢
    rw [List.foldl_cons]
    have : addComp [] k = k := by simp [addComp, hne]
    rw [this, components_foldl _ (fun k' hk' => hs k' (List.mem_cons_of_mem _ hk')) _ hne, components_one h]
    simp [hne]

theorem components_inj {a b : Bytes} (h : components a = components b) : a = b := by
  induction a using comp_induction generalizing b with
  | one k hk =>
    rw [components_one hk] at h
    rcases comp_cases b with hb | ⟨k', r, rfl, hb⟩
    · rw [components_one hb] at h; exact List.cons.inj h |>.1
    · rw [components_more hb] at h
      exact absurd (List.cons.inj h).2.symm (components_ne r)
  | more k r hk ih =>
    rw [components_more hk] at h
    rcases comp_cases b with hb | ⟨k', r', rfl, hb⟩
    · rw [components_one hb] at h
      exact absurd (List.cons.inj h).2 (components_ne r)
    · rw [components_more hb] at h
      obtain ⟨rfl, h2⟩ := List.cons.inj h
      rw [ih h2]

theorem squeeze_head (s : Bytes) : (squeeze s).head? = s.head? := by
  induction s with
  | nil => rfl
  | cons a s ih =>
    cases s with
    | nil => rfl
    | cons b r =>
      unfold squeeze
      split
      · rename_i h
        rw [ih, h.1, h.2]; rfl
      · rfl

theorem squeeze_noDouble (s : Bytes) : ¬ Occurs b!"//" (squeeze s) := by
  induction s with
  | nil => exact occurs2_nil _ _
  | cons a s ih =>
    cases s with
    | nil =>
      show ¬ Occurs [c!"/", c!"/"] [a]
      rw [occurs2_cons]; simp [occurs2_nil]
    | cons b r =>
      unfold squeeze
      split
      · exact ih
      · rename_i h
        rw [occurs2_cons, squeeze_head]
        rintro (⟨h1, h2⟩ | h2)
        · exact h ⟨h1, by simpa using h2⟩
        · exact ih h2

theorem squeeze_id {s : Bytes} (h : ¬ Occurs b!"//" s) : squeeze s = s := by
  induction s with
  | nil => rfl
  | cons a s ih =>
    rw [occurs2_cons, not_or] at h
    cases s with
    | nil => rfl
    | cons b r =>
      unfold squeeze
      rw [if_neg, ih h.2]
      rintro ⟨h1, h2⟩
      exact h.1 ⟨h1, by rw [h2]; rfl⟩

theorem nonempty_comps (name : Bytes) (hc : name ≠ []) (h0 : name.head? ≠ some c!"/") (hl : name.getLast? ≠ some c!"/") :
    (∀ k ∈ components name, k ≠ []) ↔ ¬ Occurs b!"//" name := by
  have h := components_squeeze name hc h0 hl
  constructor
  · intro hk
    rw [List.filter_eq_self.mpr (fun k h' => by simpa using hk k h')] at h
    rw [← components_inj h]
    exact squeeze_noDouble name
  · intro hd k hk
    rw [squeeze_id hd] at h
    rw [h] at hk
    simpa using (List.mem_filter.mp hk).2

theorem squeeze_slash_mem (s : Bytes) : c!"/" ∈ squeeze s ↔ c!"/" ∈ s := by
  induction s with
  | nil => rfl
  | cons a s ih =>
    cases s with
    | nil => rfl
    | cons b r =>
      unfold squeeze
      split
      · rename_i h
        rw [ih, h.1, h.2]; simp
      · simp only [List.mem_cons] at ih ⊢
        rw [ih]

theorem valid_squeeze {o p s : Bool} {name : Bytes} (h : Valid o p s name) : Valid o p s (squeeze name) := by
  have hc := components_squeeze name h.nonempty h.noSlashFirst h.noSlashLast
  by_cases hm : c!"/" ∈ name
  case neg =>
    have : squeeze name = name := by
      apply components_inj
      rw [hc, components_one hm]
      simp [h.nonempty]
    rw [this]; exact h
  have hm' := (squeeze_slash_mem name).mpr hm
  obtain ⟨k, r, rfl, hk⟩ := (comp_cases name).resolve_left (fun e => e hm)
  have hkne : k ≠ [] := by rintro rfl; exact h.noSlashFirst rfl
  have hr := getLast?_more h.noSlashLast
  have hsq := squeeze_plain k (c!"/" :: r) hk hkne
  have hsub : ∀ x ∈ components (squeeze (k ++ c!"/" :: r)), x ∈ components (k ++ c!"/" :: r) := by
    intro x hx; rw [hc] at hx; exact (List.mem_filter.mp hx).1
  have hlast : lastComp (squeeze (k ++ c!"/" :: r)) = lastComp (k ++ c!"/" :: r) := by
    have hl := getLast?_comp (k ++ c!"/" :: r)
    have hne : lastComp (k ++ c!"/" :: r) ≠ [] := by
      intro e
      rw [if_pos e, if_pos hm] at hl
      exact h.noSlashLast hl
    unfold lastComp at *
    rw [hc]
    cases hg : (components (k ++ c!"/" :: r)).getLast? with
    | none => exact absurd (List.getLast?_eq_none_iff.mp hg) (components_ne _)
    | some x =>
      rw [hg] at hne
      obtain ⟨l, hl⟩ := List.getLast?_eq_some_iff.mp hg
      have hx : (!x.isEmpty) = true := by simpa using hne
      rw [hl, List.filter_append, List.filter_cons, if_pos hx]
      simp
  have hgl : (squeeze (k ++ c!"/" :: r)).getLast? = (k ++ c!"/" :: r).getLast? := by
    rw [getLast?_comp, hlast, getLast?_comp (k ++ c!"/" :: r)]
    simp only [hm, hm', if_true]
  have hne : squeeze (k ++ c!"/" :: r) ≠ [] := by rw [hsq]; simp [hkne]
  have hhead := squeeze_head (k ++ c!"/" :: r)
  have hh : (squeeze (k ++ c!"/" :: r)).head? ≠ some c!"/" := by rw [hhead]; exact h.noSlashFirst
  refine ⟨hne, hh, by rw [hgl]; exact h.noSlashLast, by rw [hgl]; exact h.noDotLast, ?_, ?_, ?_, ?_, ?_, ?_, fun e => absurd hm' e, fun _ => ?_⟩
  · have h1 := (plain_components _ h.noSlashFirst _ _ (components_more hk r)).mp h.plain
    have h2 : components (squeeze (k ++ c!"/" :: r)) = k :: (components r).filter (fun k => !k.isEmpty) := by
      rw [hc, components_more hk]; simp [hkne]
    exact (plain_components _ hh _ _ h2).mpr ⟨h1.1, fun x hx => h1.2 x (List.mem_filter.mp hx).1⟩
  · intro e
    obtain ⟨x, hx, e⟩ := (occurs_components (by decide) (by decide) _).mp e
    exact h.noDotDot ((occurs_components (by decide) (by decide) _).mpr ⟨x, hsub x hx, e⟩)
  · intro e
    obtain ⟨x, hx, e⟩ := (occurs_components (by decide) (by decide) _).mp e
    exact h.noAtBrace ((occurs_components (by decide) (by decide) _).mpr ⟨x, hsub x hx, e⟩)
  · have h1 := h.stars
    rw [count_components] at h1 ⊢
    rw [hc]
    refine Nat.le_trans ?_ h1
    generalize components (k ++ c!"/" :: r) = l
    induction l with
    | nil => simp
    | cons x l ih =>
      rw [List.filter_cons]
      split
      · simp only [List.map_cons, List.sum_cons]; omega
      · simp only [List.map_cons, List.sum_cons]; omega
  · exact fun x hx => h.noDotFirst x (hsub x hx)
  · exact fun x hx => h.noLock x (hsub x hx)
  · have h1 := h.manyLevels hm
    have htw : ∀ q, (k ++ c!"/" :: q).takeWhile (· != c!"/") = k := by
      intro q
      apply takeWhile_append_stop
      · intro x hx
        simp only [bne_iff_ne, ne_eq]
        rintro rfl
        exact hk hx
      · intro x hx
        simp only [List.head?_cons, Option.some.injEq] at hx
        simp [← hx]
    rw [htw] at h1
    rw [hsq]
    have : ∃ q, squeeze (c!"/" :: r) = c!"/" :: q := by
      have := squeeze_head (c!"/" :: r)
      cases hq : squeeze (c!"/" :: r) with
      | nil => rw [hq] at this; simp at this
      | cons x q => rw [hq] at this; simp at this; exact ⟨q, by rw [this]⟩
    obtain ⟨q, hq⟩ := this
    rw [hq, htw]
    exact h1

/-! ## The property -/

/-- **C15.** `git_reference_normalize_name` with a large enough buffer accepts a name exactly when it follows the rules, and returns it with
runs of slashes collapsed; any other name is refused with GIT_EINVALIDSPEC.  Nothing outside the name is read. -/
theorem C15_normalize (name : Bytes) (fl : Flags) (hv : fl.noValidation = false) (size : Nat) (hsize : name.length < size) :
    (Valid fl.onelevel fl.pattern fl.shorthand name → normalizeName size name fl = .ok (squeeze name)) ∧
    (¬ Valid fl.onelevel fl.pattern fl.shorthand name → normalizeName size name fl = .err EINVALIDSPEC) := by
  have hle : (squeeze name).length ≤ name.length := by
    clear hsize
    induction name with
    | nil => exact Nat.le_refl _
    | cons a s ih =>
      cases s with
      | nil => exact Nat.le_refl _
      | cons b r =>
        unfold squeeze
        split
        · exact Nat.le_trans ih (by simp)
        · simpa using ih
  unfold normalizeName
  rw [normalize_eq true name fl hv]
  constructor
  · intro h
    rw [if_pos ⟨h, .inl rfl⟩]
    simp only [if_true, Res.bind_ok]
    rw [if_neg (by omega), if_neg (by omega)]
  · intro h
    rw [if_neg (fun e => h e.1)]
    rfl

/-- **C15 (buffer).** Whatever the size of the caller's buffer, at most `size` bytes are written, the NUL included, and a name that does not
fit is refused, never truncated. -/
theorem C15_buffer (name : Bytes) (fl : Flags) (size : Nat) :
    (∀ r, normalizeName size name fl = .ok r → normalize true name fl = .ok r ∧ r.length < size) ∧ normalizeName size name fl ≠ .ub := by
  unfold normalizeName
  constructor
  · intro r h
    cases hn : normalize true name fl with
    | ok b =>
      rw [hn] at h
      simp only [Res.bind_ok] at h
      by_cases h1 : size = 0
      · rw [if_pos h1] at h; cases h
      · rw [if_neg h1] at h
        by_cases h2 : b.length > size - 1
        · rw [if_pos h2] at h; cases h
        · rw [if_neg h2] at h; cases h; exact ⟨rfl, by omega⟩
    | err e => rw [hn] at h; cases h
    | ub => rw [hn] at h; cases h
  · have hub : normalize true name fl ≠ .ub := by
      cases hv : fl.noValidation
      · rw [normalize_eq true name fl hv]; split <;> exact fun h => by cases h
      · unfold normalize; rw [if_pos hv]; exact fun h => by cases h
    cases hn : normalize true name fl with
    | ok b =>
      simp only [Res.bind_ok]
      split
      · exact fun h => by cases h
      · split <;> exact fun h => by cases h
    | err e => exact fun h => by cases h
    | ub => exact absurd hn hub

/-- **C15 (validity).** `git_reference_name_is_valid` says yes exactly when the name follows the rules and has no empty component. -/
theorem C15_name_is_valid (name : Bytes) (fl : Flags) (hv : fl.noValidation = false) :
    (nameIsValid name fl = .ok true ↔ Valid fl.onelevel fl.pattern fl.shorthand name ∧ ¬ Occurs b!"//" name) ∧
    (nameIsValid name fl = .ok false ↔ ¬ (Valid fl.onelevel fl.pattern fl.shorthand name ∧ ¬ Occurs b!"//" name)) := by
  unfold nameIsValid
  rw [normalize_eq false name fl hv]
  by_cases h : Valid fl.onelevel fl.pattern fl.shorthand name ∧ ¬ Occurs b!"//" name
  · have := (nonempty_comps name h.1.nonempty h.1.noSlashFirst h.1.noSlashLast).mpr h.2
    rw [if_pos ⟨h.1, .inr this⟩]
    exact ⟨⟨fun _ => h, fun _ => rfl⟩, ⟨fun e => by simp at e, fun e => absurd h e⟩⟩
  · have : ¬ (Valid fl.onelevel fl.pattern fl.shorthand name ∧ (false = true ∨ ∀ k ∈ components name, k ≠ [])) := by
      rintro ⟨h1, h2⟩
      exact h ⟨h1, (nonempty_comps name h1.nonempty h1.noSlashFirst h1.noSlashLast).mp (h2.resolve_left (by simp))⟩
    rw [if_neg this]
    exact ⟨⟨fun e => by simp at e, fun e => absurd e h⟩, ⟨fun _ => h, fun _ => rfl⟩⟩

/-- **C15 (fixed point).** A normalised name is valid and is its own normal form. -/
theorem C15_fixed_point (name r : Bytes) (fl : Flags) (hv : fl.noValidation = false) (size : Nat) (h : normalizeName size name fl = .ok r) :
    normalizeName size r fl = .ok r ∧ nameIsValid r fl = .ok true := by
  obtain ⟨h1, h2⟩ := (C15_buffer name fl size).1 r h
  rw [normalize_eq true name fl hv] at h1
  split at h1
  · rename_i hV
    simp only [if_true, Res.ok.injEq] at h1
    subst h1
    have hV' := valid_squeeze hV.1
    refine ⟨?_, (C15_name_is_valid _ fl hv).1.mpr ⟨hV', squeeze_noDouble name⟩⟩
    rw [(C15_normalize _ fl hv size h2).1 hV', squeeze_id (squeeze_noDouble name)]
  · cases h1

/-- **C15 (safety).** A name that is accepted as a reference name has no component that is empty, ".", "..", starts with a dot or ends in
".lock"; it has no control character, space or one of ~ : \ ? [, no "..", no "@{" and no "*"; and no caret, except possibly as its first byte. -/
theorem C15_safe (name r : Bytes) (fl : Flags) (hv : fl.noValidation = false) (hp : fl.pattern = false) (size : Nat)
    (h : normalizeName size name fl = .ok r) :
    (∀ k ∈ components r, k ≠ [] ∧ k.head? ≠ some c!"." ∧ ¬ ∃ a, k = a ++ b!".lock") ∧
    (∀ c ∈ r, 32 < c ∧ c ∉ b!"~:\\?[*") ∧ (∀ c ∈ r.tail, c ≠ c!"^") ∧
    ¬ Occurs b!".." r ∧ ¬ Occurs b!"@{" r ∧ ¬ Occurs b!"//" r ∧ r.head? ≠ some c!"/" ∧ r.getLast? ≠ some c!"/" ∧ r.getLast? ≠ some c!"." := by
  obtain ⟨h1, h2⟩ := (C15_name_is_valid r fl hv).1.mp (C15_fixed_point name r fl hv size h).2
  have hne := (nonempty_comps r h1.nonempty h1.noSlashFirst h1.noSlashLast).mpr h2
  have hstar : c!"*" ∉ r := by
    have := h1.stars
    rw [hp] at this
    simp only [Bool.false_eq_true, if_false] at this
    exact List.count_eq_zero.mp (by omega)
  have hplain : ∀ c ∈ r, Plain c ∨ c = c!"^" := by
    intro c hc
    cases r with
    | nil => cases hc
    | cons x r =>
      have := h1.plain
      simp only [uncaret] at this
      by_cases hx : x = c!"^"
      · rw [if_pos hx] at this
        rcases List.mem_cons.mp hc with rfl | hc
        · exact .inr hx
        · exact .inl (this c hc)
      · rw [if_neg hx] at this
        exact .inl (this c hc)
  refine ⟨fun k hk => ⟨hne k hk, h1.noDotFirst k hk, h1.noLock k hk⟩, ?_, ?_, h1.noDotDot, h1.noAtBrace, h2, h1.noSlashFirst, h1.noSlashLast, h1.noDotLast⟩
  · intro c hc
    have hne : c ≠ c!"*" := fun e => hstar (e ▸ hc)
    have h3 := hplain c hc
    unfold Plain at h3
    revert h3 hne
    clear hc
    revert c
    decide +kernel
  · intro c hc
    cases r with
    | nil => cases hc
    | cons x r =>
      have := h1.plain
      simp only [uncaret] at this
      have h3 : Plain c := by
        split at this
        · exact this c hc
        · exact this c (List.mem_cons_of_mem _ hc)
      rintro rfl
      exact h3.2 (by decide)

/-- **C15 (finding).** The caret that marks a negative refspec is allowed in every reference name, and so is the DEL character, although the
documentation of git excludes both. -/
theorem C15_caret_and_del_accepted :
    nameIsValid b!"^refs/heads/a" ⟨true, false, false, false⟩ = .ok true ∧
    nameIsValid (b!"refs/heads/a" ++ [127]) ⟨true, false, false, false⟩ = .ok true := by
  constructor <;> simp [nameIsValid, normalize, loop, ensureSegmentValidity, segLoop, isValidRefChar, lockExt, isValidNormalizedName, capsLoop]

/-- the hypotheses of C15_fixed_point and C15_safe can be met: "refs//heads/a" becomes "refs/heads/a" -/
example : normalizeName 1024 b!"refs//heads/a" ⟨true, false, false, false⟩ = .ok b!"refs/heads/a" := by
  simp [normalizeName, normalize, loop, ensureSegmentValidity, segLoop, isValidRefChar, lockExt, isValidNormalizedName, capsLoop, joinpath]

/-- and names are refused -/
example : normalizeName 1024 b!"refs/heads/a.lock" ⟨true, false, false, false⟩ = .err EINVALIDSPEC ∧
    normalizeName 1024 b!"HEAD/x" ⟨true, false, false, false⟩ = .err EINVALIDSPEC ∧
    normalizeName 1024 b!"refs/../x" ⟨true, false, false, false⟩ = .err EINVALIDSPEC := by
  refine ⟨?_, ?_, ?_⟩ <;>
  simp [normalizeName, normalize, loop, ensureSegmentValidity, segLoop, isValidRefChar, lockExt, isValidNormalizedName, capsLoop, joinpath]

end Verif.RefName
