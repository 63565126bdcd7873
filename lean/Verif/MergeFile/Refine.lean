import Verif.MergeFile.Overlay
/-! # Making conflicts smaller and larger keeps the regions laid -/
namespace Verif.MergeFile
open Verif.Patch (Change splitLines)

theorem range_ok {l : List Bytes} {i c : Int} {a b : Nat} (h1 : i = a) (h2 : c = b) (h : a + b ≤ l.length) : range l i c = .ok (slice l a b) := by
  subst h1; subst h2
  unfold range
  rw [if_pos (by omega)]
  rfl

theorem slice_get {X : List Bytes} {i k n : Nat} (h : n < k) : (slice X i k)[n]? = X[i + n]? := by
  unfold slice
  rw [List.getElem?_take, if_pos h, List.getElem?_drop]

theorem Al.of_slice {X Y : List Bytes} {I J K1 K2 p p' k : Nat} (hI : I + K1 ≤ X.length) (hJ : J + K2 ≤ Y.length) (h : Al (slice X I K1) (slice Y J K2) p p' k) : Al X Y (I + p) (J + p') k := by
  obtain ⟨a, b, c⟩ := h
  rw [slice_length hI] at a
  rw [slice_length hJ] at b
  refine ⟨by omega, by omega, fun n hn => ?_⟩
  have := c n hn
  rw [slice_get (by omega), slice_get (by omega)] at this
  rw [Nat.add_assoc, Nat.add_assoc]; exact this

/-- a search for differences that finds a script for any two lists of lines (that fit into memory) -/
def Finds (diff : List Bytes → List Bytes → Res (List Change)) : Prop := ∀ a b : List Bytes, a.length + b.length < 2 ^ 62 → ∃ cs, diff a b = .ok cs ∧ Rem a b false 0 0 cs

theorem parts_laid {F : Files} {m : M} {r : List M} {I J K1 K2 n0 : Nat} (hI : I + K1 ≤ F.ours.length) (hJ : J + K2 ≤ F.theirs.length) (h1 : m.i1 = I) (h2 : m.i2 = J) (hm : m.mode = 0)
    (ht : Laid F false true n0 (I + K1) (J + K2) r) : ∀ (cs : List Change) (f : Bool) (p p' : Nat), Rem (slice F.ours I K1) (slice F.theirs J K2) f p p' cs →
      Laid F false f n0 (I + p) (J + p') (cs.map (part m) ++ r) := by
  intro cs
  induction cs with
  | nil =>
    intro f p p' h
    cases h with
    | @nil _ _ _ k a b c =>
      rw [slice_length hI] at a
      rw [slice_length hJ] at b
      exact ht.back (Nat.le_refl _) (k := k) (by omega) (by omega) (c.of_slice hI hJ) (fun _ => .inl rfl)
  | cons x xs ih =>
    intro f p p' h
    cases h with
    | @cons _ _ _ k _ _ a b c d e g =>
      have := ih _ _ _ g
      refine .cons (k := k) (n0 := n0) (nb := 0) (k1 := x.chg1) (k2 := x.chg2) a (b.of_slice hI hJ) (Nat.le_refl _) ?_ ?_ rfl rfl (by simp) (.inl hm) ?_
      · simp only [part]; omega
      · simp only [part]; omega
      · rwa [show I + p + k + x.chg1 = I + (x.i1 + x.chg1) by omega, show J + p' + k + x.chg2 = J + (x.i2 + x.chg2) by omega]

theorem refine_laid {F : Files} {diff : List Bytes → List Bytes → Res (List Change)} (hd : Finds diff) (hsz : F.ours.length + F.theirs.length < 2 ^ 62) {d3 f : Bool} {c0 c1 c2 : Nat} {ms : List M}
    (h : Laid F d3 f c0 c1 c2 ms) : ∃ r, refine diff F ms = .ok r ∧ Laid F false f c0 c1 c2 r := by
  induction h with
  | nil a b c d => exact ⟨[], rfl, .nil a b c d⟩
  | @cons f c0 c1 c2 k n0 nb k1 k2 ms m a b c d e g i j l t ih =>
    obtain ⟨r, hr, hl⟩ := ih
    simp only [refine]
    have hb := hl.bound
    by_cases hm : m.mode ≠ 0 ∨ m.chg1 = 0 ∨ m.chg2 = 0
    · rw [if_pos hm, hr, Res.bind_ok]
      exact ⟨_, rfl, .cons a b c d e g i (by simp) l hl⟩
    · have hm0 : m.mode = 0 := by omega
      rw [if_neg hm, range_ok d g (by omega), Res.bind_ok, range_ok e i (by omega), Res.bind_ok]
      obtain ⟨cs, hc, hrem⟩ := hd (slice F.ours (c1 + k) k1) (slice F.theirs (c2 + k) k2) (by rw [slice_length (by omega), slice_length (by omega)]; omega)
      rw [hc, Res.bind_ok, hr, Res.bind_ok]
      refine ⟨_, rfl, ?_⟩
      unfold parts
      by_cases hcs : cs = []
      · rw [if_pos hcs]
        subst hcs
        cases hrem with
        | @nil _ _ _ k' u v w =>
          rw [slice_length (by omega)] at u
          rw [slice_length (by omega)] at v
          have hw := w.of_slice (by omega) (by omega)
          refine .cons (m := { m with mode := 4 }) a b c d e g i (by simp) (.inr (.inr (.inr ⟨rfl, c1 + k, c2 + k, k', d, e, by dsimp only; omega, by dsimp only; omega, hw⟩))) hl
      · rw [if_neg hcs]
        have := parts_laid (F := F) (m := m) (by omega) (by omega) d e hm0 hl cs false 0 0 hrem
        cases cs with
        | nil => exact absurd rfl hcs
        | cons x xs =>
          rw [Nat.add_zero, Nat.add_zero] at this
          exact this.back (by omega) (k := k) rfl rfl b (fun hf => .inr (a hf))

theorem refine_noConflict {F : Files} {diff : List Bytes → List Bytes → Res (List Change)} : ∀ ms : List M, NoConflict ms → refine diff F ms = .ok ms := by
  intro ms
  induction ms with
  | nil => intro _; rfl
  | cons m ms ih =>
    intro h
    rw [noConflict_cons] at h
    simp only [refine]
    rw [if_pos (.inl h.1), ih h.2, Res.bind_ok]

theorem mergeTwo_laid {F : Files} {f : Bool} {c0 c1 c2 : Nat} {m n : M} {ms : List M} (h : Laid F false f c0 c1 c2 (m :: n :: ms)) (hm : m.mode = 0) : Laid F false f c0 c1 c2 (mergeTwo m n :: ms) := by
  cases h with
  | @cons _ _ _ _ k n0 nb k1 k2 _ _ a b c d e g i j l t =>
    cases t with
    | @cons _ _ _ _ k' n0' nb' k1' k2' _ _ a' b' c' d' e' g' i' j' l' t' =>
      refine .cons (k := k) (n0 := n0') (nb := nb') (k1 := k1 + k' + k1') (k2 := k2 + k' + k2') a b (by omega) d e ?_ ?_ (by simp) (.inl hm) ?_
      · simp only [mergeTwo]; omega
      · simp only [mergeTwo]; omega
      · rwa [show c1 + k + (k1 + k' + k1') = c1 + k + k1 + k' + k1' by omega, show c2 + k + (k2 + k' + k2') = c2 + k + k2 + k' + k2' by omega]

theorem apart_ok {F : Files} {f alnum : Bool} {c0 c1 c2 : Nat} {m n : M} {ms : List M} (h : Laid F false f c0 c1 c2 (m :: n :: ms)) :
    ∃ b, apart F alnum m n = .ok b ∧ (b = false → m.mode = 0 ∧ n.mode = 0) := by
  cases h with
  | @cons _ _ _ _ k n0 nb k1 k2 _ _ a b c d e g i j l t =>
    have ht := t
    cases t with
    | @cons _ _ _ _ k' n0' nb' k1' k2' _ _ a' b' c' d' e' g' i' j' l' t' =>
      have := t'.bound
      unfold apart
      by_cases h1 : m.mode ≠ 0 ∨ n.mode ≠ 0
      · rw [if_pos h1]; exact ⟨true, rfl, by simp⟩
      · rw [if_neg h1]
        have h2 : m.mode = 0 ∧ n.mode = 0 := by omega
        split
        · split
          · exact ⟨_, rfl, fun _ => h2⟩
          · unfold containAlnum
            rw [range_ok (a := c1 + k + k1) (b := k') (by omega) (by omega) (by omega), Res.bind_ok]
            exact ⟨_, rfl, fun _ => h2⟩
        · exact ⟨_, rfl, fun _ => h2⟩

theorem simplifyFrom_laid {F : Files} {alnum : Bool} : ∀ (ns : List M) (m : M) (f : Bool) (c0 c1 c2 : Nat), Laid F false f c0 c1 c2 (m :: ns) →
    ∃ r, simplifyFrom F alnum m ns = .ok r ∧ Laid F false f c0 c1 c2 r := by
  intro ns
  induction ns with
  | nil => intro m f c0 c1 c2 h; exact ⟨[m], rfl, h⟩
  | cons n ns ih =>
    intro m f c0 c1 c2 h
    obtain ⟨b, hb, hmode⟩ := apart_ok (alnum := alnum) h
    simp only [simplifyFrom]
    rw [hb, Res.bind_ok]
    cases b with
    | true =>
      rw [if_pos rfl]
      cases h with
      | cons a b c d e g i j l t =>
        obtain ⟨r, hr, hl⟩ := ih _ _ _ _ _ t
        rw [hr, Res.bind_ok]
        exact ⟨_, rfl, .cons a b c d e g i j l hl⟩
    | false =>
      rw [if_neg (by simp)]
      exact ih _ _ _ _ _ (mergeTwo_laid h (hmode rfl).1)

theorem simplify_laid {F : Files} {alnum f : Bool} {c0 c1 c2 : Nat} {ms : List M} (h : Laid F false f c0 c1 c2 ms) : ∃ r, simplify F alnum ms = .ok r ∧ Laid F false f c0 c1 c2 r := by
  cases ms with
  | nil => exact ⟨[], rfl, h⟩
  | cons m ms => exact simplifyFrom_laid ms m f c0 c1 c2 h

theorem simplify_noConflict {F : Files} {alnum : Bool} : ∀ ms : List M, NoConflict ms → simplify F alnum ms = .ok ms := by
  have key : ∀ (ns : List M) (m : M), m.mode ≠ 0 → NoConflict ns → simplifyFrom F alnum m ns = .ok (m :: ns) := by
    intro ns
    induction ns with
    | nil => intro m _ _; rfl
    | cons n ns ih =>
      intro m hm h
      rw [noConflict_cons] at h
      simp only [simplifyFrom, apart]
      rw [if_pos (.inl hm), Res.bind_ok, if_pos rfl, ih n h.1 h.2, Res.bind_ok]
  intro ms h
  cases ms with
  | nil => rfl
  | cons m ms => rw [noConflict_cons] at h; exact key ms m h.1 h.2

theorem commonStart_le : ∀ a b : List Bytes, commonStart a b ≤ a.length ∧ commonStart a b ≤ b.length ∧ a.take (commonStart a b) = b.take (commonStart a b) := by
  intro a
  induction a with
  | nil => intro b; cases b <;> simp [commonStart]
  | cons x xs ih =>
    intro b
    cases b with
    | nil => simp [commonStart]
    | cons y ys =>
      simp only [commonStart]
      split
      · rename_i h; subst h; have := ih ys; simp only [List.length_cons, List.take_succ_cons]; exact ⟨by omega, by omega, by rw [this.2.2]⟩
      · simp

theorem take_reverse_eq {a b : List Bytes} {s : Nat} (ha : s ≤ a.length) (hb : s ≤ b.length) (h : a.reverse.take s = b.reverse.take s) : a.drop (a.length - s) = b.drop (b.length - s) := by
  rw [List.take_reverse, List.take_reverse] at h
  exact List.reverse_inj.1 h

theorem trim_ok {F : Files} {m : M} {I J k1 k2 : Nat} (hI : I + k1 ≤ F.ours.length) (hJ : J + k2 ≤ F.theirs.length) (h1 : m.i1 = I) (h2 : m.i2 = J) (g1 : m.chg1 = k1) (g2 : m.chg2 = k2) :
    ∃ p s : Nat, p + s ≤ k1 ∧ p + s ≤ k2 ∧ Al F.ours F.theirs I J p ∧ Al F.ours F.theirs (I + (k1 - s)) (J + (k2 - s)) s ∧
      trim F m = .ok { m with i1 := (I + p : Nat), i2 := (J + p : Nat), chg1 := (k1 - p - s : Nat), chg2 := (k2 - p - s : Nat) } := by
  unfold trim
  rw [range_ok h1 g1 hI, Res.bind_ok, range_ok h2 g2 hJ, Res.bind_ok]
  dsimp only
  have la := slice_length hI
  have lb := slice_length hJ
  generalize ha : slice F.ours I k1 = a at *
  generalize hb : slice F.theirs J k2 = b at *
  obtain ⟨p1, p2, p3⟩ := commonStart_le a b
  generalize commonStart a b = p at *
  obtain ⟨s1, s2, s3⟩ := commonStart_le (a.drop p).reverse (b.drop p).reverse
  generalize commonStart (a.drop p).reverse (b.drop p).reverse = s at *
  rw [List.length_reverse, List.length_drop] at s1 s2
  refine ⟨p, s, by omega, by omega, ?_, ?_, ?_⟩
  · have : Al a b 0 0 p := (al_iff (by omega) (by omega)).2 (by simpa [slice] using p3)
    rw [← ha, ← hb] at this
    simpa using this.of_slice hI hJ
  · have h4 := take_reverse_eq (by rw [List.length_drop]; omega) (by rw [List.length_drop]; omega) s3
    rw [List.drop_drop, List.drop_drop, List.length_drop, List.length_drop] at h4
    have : Al a b (k1 - s) (k2 - s) s := by
      rw [al_iff (by omega) (by omega)]
      unfold slice
      rw [show k1 - s = p + (a.length - p - s) by omega, show k2 - s = p + (b.length - p - s) by omega, h4]
    rw [← ha, ← hb] at this
    exact this.of_slice hI hJ
  · congr 1
    rw [h1, h2, g1, g2]
    congr 1 <;> omega

theorem refineZ_laid {F : Files} {d3 f : Bool} {c0 c1 c2 : Nat} {ms : List M} (h : Laid F d3 f c0 c1 c2 ms) : ∃ r, refineZ F ms = .ok r ∧ Laid F d3 f c0 c1 c2 r ∧ r.map M.mode = ms.map M.mode := by
  induction h with
  | nil a b c d => exact ⟨[], rfl, .nil a b c d, rfl⟩
  | @cons f c0 c1 c2 k n0 nb k1 k2 ms m a b c d e g i j l t ih =>
    obtain ⟨r, hr, hl, hmode⟩ := ih
    simp only [refineZ]
    have hb := hl.bound
    by_cases hm : m.mode ≠ 0
    · rw [if_pos hm, hr, Res.bind_ok]
      exact ⟨_, rfl, .cons a b c d e g i j l hl, by simp [hmode]⟩
    · rw [if_neg hm]
      obtain ⟨p, s, hp, hs, al1, al2, htrim⟩ := trim_ok (F := F) (m := m) (by omega) (by omega) d e g i
      rw [htrim, Res.bind_ok, hr, Res.bind_ok]
      refine ⟨_, rfl, ?_, by simp [hmode]⟩
      refine .cons (k := k + p) (n0 := n0) (nb := nb) (k1 := k1 - p - s) (k2 := k2 - p - s) (fun hf => by have := a hf; omega) (b.append al1 rfl rfl) c (by dsimp only; omega) (by dsimp only; omega) rfl rfl j
        (.inl (by dsimp only; omega)) ?_
      exact hl.back (Nat.le_refl _) (k := s) (by omega) (by omega) (by convert al2 using 1 <;> omega) (fun _ => .inl rfl)

theorem refined_laid {F : Files} {diff : List Bytes → List Bytes → Res (List Change)} (hd : Finds diff) (hsz : F.ours.length + F.theirs.length < 2 ^ 62) (P : Params) {f : Bool} {c0 c1 c2 : Nat} {ms : List M}
    (h : Laid F true f c0 c1 c2 ms) : ∃ r, refined diff F P ms = .ok r ∧ Laid F (decide (P.style = 1 ∨ P.style = 2)) f c0 c1 c2 r ∧ (NoConflict ms → NoConflict r) ∧
      (P.style = 1 ∨ P.style = 2 → NoConflict r → NoConflict ms) := by
  unfold refined
  by_cases h2 : P.style = 2
  · rw [if_pos h2]
    obtain ⟨r, h3, h4, h5⟩ := refineZ_laid h
    have : NoConflict r ↔ NoConflict ms := by
      have e : ∀ l : List M, NoConflict l ↔ ∀ n ∈ l.map M.mode, n ≠ 0 := by intro l; simp [NoConflict]
      rw [e, e, h5]
    exact ⟨r, h3, by simpa [h2] using h4, this.2, fun _ => this.1⟩
  · rw [if_neg h2]
    by_cases h1 : P.style = 1
    · rw [if_pos h1]
      exact ⟨ms, rfl, by simpa [h1] using h, id, fun _ => id⟩
    · rw [if_neg h1]
      obtain ⟨r, h3, h4⟩ := refine_laid hd hsz h
      obtain ⟨r', h5, h6⟩ := simplify_laid (alnum := P.alnum) h4
      rw [h3, Res.bind_ok, h5]
      refine ⟨r', rfl, by simpa [h1, h2] using h6, ?_, by omega⟩
      intro hno
      rw [refine_noConflict ms hno] at h3
      cases h3
      rw [simplify_noConflict ms hno] at h5
      cases h5
      exact hno

end Verif.MergeFile
