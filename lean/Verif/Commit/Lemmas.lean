import Verif.Oid.Props
import Verif.Sig.Props
import Verif.Commit.Spec
namespace Verif.Commit
open Verif.Sig Verif.Sig.Spec Verif.Commit.Spec

theorem take_line {l : Bytes} (h : c!"\n" ∉ l) (r : Bytes) : (l ++ c!"\n" :: r).takeWhile (· ≠ c!"\n") = l :=
  takeWhile_append_stop _ _ _ (fun x hx => by simpa using fun e : x = c!"\n" => h (e ▸ hx)) (by simp)

theorem drop_line {l : Bytes} (h : c!"\n" ∉ l) (r : Bytes) : (l ++ c!"\n" :: r).dropWhile (· ≠ c!"\n") = c!"\n" :: r :=
  dropWhile_append_stop _ _ _ (fun x hx => by simpa using fun e : x = c!"\n" => h (e ▸ hx)) (by simp)

theorem take_last {l : Bytes} (h : c!"\n" ∉ l) : l.takeWhile (· ≠ c!"\n") = l := by
  have := takeWhile_append_stop (· ≠ c!"\n") l [] (fun x hx => by simpa using fun e : x = c!"\n" => h (e ▸ hx)) (by simp)
  simpa using this

theorem drop_last {l : Bytes} (h : c!"\n" ∉ l) : l.dropWhile (· ≠ c!"\n") = [] := by
  have := dropWhile_append_stop (· ≠ c!"\n") l [] (fun x hx => by simpa using fun e : x = c!"\n" => h (e ▸ hx)) (by simp)
  simpa using this

theorem split_line {b : Bytes} (h : c!"\n" ∈ b) : ∃ l r, b = l ++ c!"\n" :: r ∧ c!"\n" ∉ l := by
  obtain ⟨l, r, e, h'⟩ := List.append_of_mem h |> fun ⟨s, t, e⟩ => (⟨s, t, e, trivial⟩ : ∃ l r, b = l ++ c!"\n" :: r ∧ True)
  clear h' e l r
  induction b with
  | nil => simp at h
  | cons c b ih =>
    by_cases hc : c = c!"\n"
    · exact ⟨[], b, by simp [hc], by simp⟩
    · have hb : c!"\n" ∈ b := by
        rcases List.mem_cons.mp h with h | h
        · exact absurd h.symm hc
        · exact h
      obtain ⟨l, r, e, hn⟩ := ih hb
      refine ⟨c :: l, r, by simp [e], ?_⟩
      intro hm
      rcases List.mem_cons.mp hm with hm | hm
      · exact hc hm.symm
      · exact hn hm

theorem hexVal_nl : ∀ c : UInt8, (Oid.Spec.hexVal c).isSome = true → c ≠ c!"\n" ∧ c ≠ 0 := by decide +kernel

theorem mapM_some {l : Bytes} {vs : List UInt8} (h : l.mapM Oid.Spec.hexVal = some vs) : ∀ c ∈ l, (Oid.Spec.hexVal c).isSome = true := by
  induction l generalizing vs with
  | nil => simp
  | cons c l ih =>
    simp only [List.mapM_cons] at h
    cases h1 : Oid.Spec.hexVal c with
    | none => simp [h1] at h
    | some v =>
      cases h2 : l.mapM Oid.Spec.hexVal with
      | none => simp [h1, h2] at h
      | some ws =>
        intro d hd
        rcases List.mem_cons.mp hd with rfl | hd
        · simp [h1]
        · exact ih h2 d hd

theorem IdLine.line {size : Nat} {header id line : Bytes} (h : IdLine size header id line) (hh : c!"\n" ∉ header) : c!"\n" ∉ line := by
  obtain ⟨x, rfl, _, h2⟩ := h
  intro hm
  rcases List.mem_append.mp hm with hm | hm
  · exact hh hm
  · exact (hexVal_nl _ (mapM_some h2 _ hm)).1 rfl

theorem SigLine.line {header line : Bytes} {s : Signature} (h : SigLine header s line) (hh : c!"\n" ∉ header) : c!"\n" ∉ line := by
  obtain ⟨x, rfl, h2, _⟩ := h
  intro hm
  rcases List.mem_append.mp hm with hm | hm
  · exact hh hm
  · exact h2 hm

theorem parseOidHeader_iff {size : Nat} (hs : 0 < size) {header buf id r : Bytes} :
    parseOidHeader size header buf = .ok (id, r) ↔ ∃ line, IdLine size header id line ∧ buf = line ++ c!"\n" :: r := by
  unfold parseOidHeader
  constructor
  · intro h
    by_cases h1 : buf.length < header.length + 2 * size + 1
    · rw [if_pos h1] at h; cases h
    rw [if_neg h1] at h
    by_cases h2 : buf.take header.length ≠ header
    · rw [if_pos h2] at h; cases h
    rw [if_neg h2] at h
    by_cases h3 : buf[header.length + 2 * size]? ≠ some c!"\n"
    · rw [if_pos h3] at h; cases h
    rw [if_neg h3] at h
    have h2' : buf.take header.length = header := Decidable.of_not_not h2
    have h3' : buf[header.length + 2 * size]? = some c!"\n" := Decidable.of_not_not h3
    have hl : 2 * size ≤ (buf.drop header.length).length := by simp; omega
    have hp := Oid.C02_from_prefix size (buf.drop header.length) (2 * size) hl
    cases hf : Oid.fromPrefix size (buf.drop header.length) (2 * size) with
    | ub => exact absurd hf hp.2.2
    | err e => rw [hf] at h; cases h
    | ok i =>
      rw [hf] at h
      have h := Res.ok.inj h
      obtain ⟨rfl, rfl⟩ := Prod.mk.inj h
      obtain ⟨_, _, vs, h5, h6⟩ := (hp.1 i).1 hf
      refine ⟨buf.take (header.length + 2 * size), ⟨(buf.drop header.length).take (2 * size), ?_, ?_, ?_⟩, ?_⟩
      · rw [List.take_add, h2']
      · simp; omega
      · rw [h5, h6]; simp
      · have hlt : header.length + 2 * size < buf.length := by omega
        have := List.getElem?_eq_some_iff.mp h3'
        obtain ⟨_, hg⟩ := this
        conv => lhs; rw [← List.take_append_drop (header.length + 2 * size) buf]
        rw [List.drop_eq_getElem_cons hlt, hg]
  · rintro ⟨line, ⟨x, rfl, hx, hv⟩, rfl⟩
    rw [if_neg (by simp; omega), if_neg (by simp), if_neg]
    · have e : (header ++ x ++ c!"\n" :: r).drop header.length = x ++ c!"\n" :: r := by simp
      have hp := Oid.C02_from_prefix size (x ++ c!"\n" :: r) (2 * size) (by simp; omega)
      have := (hp.1 id).2 ⟨by omega, by omega, _, by rw [List.take_append_of_le_length (by omega), List.take_of_length_le (by omega)]; exact hv, by simp⟩
      rw [e, this]
      simp only [Res.bind_ok]
      have e2 : (header ++ x ++ c!"\n" :: r).drop (header.length + 2 * size + 1) = r := by
        have : header.length + 2 * size + 1 = (header ++ x ++ b!"\n").length := by simp [hx]; omega
        rw [this, show header ++ x ++ c!"\n" :: r = (header ++ x ++ b!"\n") ++ r by simp, List.drop_left]
      rw [e2]
    · have : header.length + 2 * size = (header ++ x).length := by simp [hx]
      rw [this]
      simp [List.getElem?_append_right]

theorem parseOidHeader_ne_ub {size : Nat} {header buf : Bytes} : parseOidHeader size header buf ≠ .ub := by
  unfold parseOidHeader
  by_cases h1 : buf.length < header.length + 2 * size + 1
  · rw [if_pos h1]; exact fun h => nomatch h
  rw [if_neg h1]
  split
  · exact fun h => nomatch h
  split
  · exact fun h => nomatch h
  have hp := Oid.C02_from_prefix size (buf.drop header.length) (2 * size) (by simp; omega)
  cases hf : Oid.fromPrefix size (buf.drop header.length) (2 * size) with
  | ub => exact absurd hf hp.2.2
  | err e => simp
  | ok i => simp

theorem sigparse_iff {header buf r : Bytes} {s : Signature} (hh : header ≠ []) (hn : c!"\n" ∉ header) :
    parse buf header c!"\n" = .ok (s, r) ↔ ∃ line, SigLine header s line ∧ buf = line ++ c!"\n" :: r := by
  have key : ∀ l r', c!"\n" ∉ l → (parse (l ++ c!"\n" :: r') header c!"\n" = .ok (s, r) ↔ SigLine header s l ∧ r' = r) := by
    intro l r' hl
    have e1 : (if c!"\n" ≠ 0 then (l ++ c!"\n" :: r').takeWhile (· ≠ c!"\n") else (l ++ c!"\n" :: r')) = l := by
      rw [if_pos (by decide), take_line hl]
    have e2 : (if c!"\n" ≠ 0 then ((l ++ c!"\n" :: r').dropWhile (· ≠ c!"\n")).drop 1 else []) = r' := by
      rw [if_pos (by decide), drop_line hl]; rfl
    unfold parse
    rw [if_neg (by simp)]
    dsimp only
    rw [e1, e2]
    by_cases hc : header ≠ [] ∧ (l.length ≤ header.length ∨ l.take header.length ≠ header)
    · rw [if_pos hc]
      constructor
      · intro h; cases h
      · rintro ⟨⟨x, rfl, _, hx⟩, _⟩
        rcases hc.2 with h | h
        · have : x = [] := List.eq_nil_of_length_eq_zero (by simp at h; omega)
          subst this
          exact absurd hx (by simp [parseLine, lastIdx])
        · simp at h
    · rw [if_neg hc]
      have hc' : header.length < l.length ∧ l.take header.length = header := by
        constructor
        · exact Nat.lt_of_not_le fun h => hc ⟨hh, .inl h⟩
        · exact Decidable.byContradiction fun h => hc ⟨hh, .inr h⟩
      constructor
      · intro h
        cases hp : parseLine (l.drop header.length) with
        | ub => rw [hp] at h; cases h
        | err e => rw [hp] at h; cases h
        | ok s' =>
          rw [hp] at h
          obtain ⟨rfl, rfl⟩ := Prod.mk.inj (Res.ok.inj h)
          refine ⟨⟨l.drop header.length, ?_, fun h => hl (List.mem_of_mem_drop h), hp⟩, rfl⟩
          conv => lhs; rw [← List.take_append_drop header.length l, hc'.2]
      · rintro ⟨⟨x, rfl, _, hx⟩, rfl⟩
        rw [List.drop_left, hx]
        rfl
  constructor
  · intro h
    by_cases hm : c!"\n" ∈ buf
    · obtain ⟨l, r', rfl, hl⟩ := split_line hm
      obtain ⟨h1, rfl⟩ := (key l r' hl).1 h
      exact ⟨l, h1, rfl⟩
    · unfold parse at h
      rw [if_pos ⟨by decide, by simpa using hm⟩] at h
      cases h
  · rintro ⟨l, h1, rfl⟩
    exact (key l r (SigLine.line h1 hn)).2 ⟨h1, rfl⟩

/-! ### the loops, forward -/

theorem isPrefixOf_line {p : Bytes} (hp : c!"\n" ∉ p) (l r : Bytes) : p.isPrefixOf (l ++ c!"\n" :: r) = p.isPrefixOf l := by
  induction p generalizing l with
  | nil => simp
  | cons a p ih =>
    have ha : a ≠ c!"\n" := fun e => hp (by simp [e])
    cases l with
    | nil => simp [List.isPrefixOf, ha]
    | cons b l => simp only [List.cons_append, List.isPrefixOf]; rw [ih (fun h => hp (by simp [h]))]

theorem unlines_cons (l : Bytes) (ls : List Bytes) (r : Bytes) : unlines (l :: ls) ++ r = l ++ c!"\n" :: (unlines ls ++ r) := by
  simp [unlines]

theorem unlines_append (a b : List Bytes) : unlines (a ++ b) = unlines a ++ unlines b := by simp [unlines]

theorem length_unlines (ls : List Bytes) : ls.length ≤ (unlines ls).length := by
  induction ls with
  | nil => simp
  | cons l ls ih =>
    have := unlines_cons l ls []
    simp only [List.append_nil] at this
    rw [this]; simp; omega

/-- a buffer that does not start with a parent line -/
def NoParent (size : Nat) (r : Bytes) : Prop := ∃ e, parseOidHeader size b!"parent " r = .err e

theorem parseParents_fwd {size : Nat} (hs : 0 < size) {ps : List Bytes} {ids : List Bytes} (h : List.Forall₂ (IdLine size b!"parent ") ids ps) {r : Bytes}
    (hr : NoParent size r) {n : Nat} (hn : ps.length < n) : parseParents size n (unlines ps ++ r) = .ok (ids, r) := by
  induction h generalizing n with
  | nil =>
    obtain ⟨e, he⟩ := hr
    cases n with
    | zero => simp at hn
    | succ n => simp [parseParents, unlines, he]
  | cons h1 h2 ih =>
    cases n with
    | zero => simp at hn
    | succ n =>
      rw [unlines_cons, parseParents, (parseOidHeader_iff hs).2 ⟨_, h1, rfl⟩]
      dsimp only
      rw [ih (by simp at hn; omega)]
      rfl

theorem noParent_of {size : Nat} {r : Bytes} (h : (b!"parent ").isPrefixOf r = false) : NoParent size r := by
  unfold NoParent parseOidHeader
  by_cases h1 : r.length < (b!"parent ").length + 2 * size + 1
  · exact ⟨_, if_pos h1⟩
  rw [if_neg h1, if_pos]
  · exact ⟨_, rfl⟩
  · intro e
    have : (b!"parent ") <+: r := by
      have := List.take_prefix 7 r
      rwa [show r.take 7 = b!"parent " from e] at this
    rw [← List.isPrefixOf_iff_prefix, h] at this
    cases this

theorem skipAuthors_fwd {as : List Bytes} (h : ∀ l ∈ as, ∃ s, SigLine b!"author " s l) {r : Bytes} (hr : (b!"author ").isPrefixOf r = false) {n : Nat}
    (hn : as.length < n) : skipAuthors n (unlines as ++ r) = .ok r := by
  induction as generalizing n with
  | nil =>
    cases n with
    | zero => simp at hn
    | succ n =>
      show skipAuthors (n + 1) r = _
      rw [skipAuthors, hr]; simp
  | cons l as ih =>
    cases n with
    | zero => simp at hn
    | succ n =>
      obtain ⟨s, hl⟩ := h l (by simp)
      rw [unlines_cons, skipAuthors, isPrefixOf_line (by decide)]
      have : (b!"author ").isPrefixOf l = true := by
        obtain ⟨x, rfl, _⟩ := hl
        exact List.isPrefixOf_iff_prefix.mpr ⟨x, rfl⟩
      rw [if_pos this, (sigparse_iff (by decide) (by decide)).2 ⟨l, hl, rfl⟩]
      exact ih (fun l' h' => h l' (List.mem_cons_of_mem _ h')) (by simp at hn; omega)

/-- what a header line does to the encoding -/
def encStep (enc : Option Bytes) (l : Bytes) : Option Bytes := if (b!"encoding ").isPrefixOf l then some (cstr (l.drop 9)) else enc

theorem encStep_foldl (ls : List Bytes) (enc : Option Bytes) : ls.foldl encStep enc = (encodingOf ls).or enc := by
  induction ls using list_snoc_induction with
  | hnil => simp [encodingOf]
  | hsnoc ls l ih =>
    rw [List.foldl_append, ih]
    unfold encodingOf
    rw [List.filter_append]
    simp only [List.foldl_cons, List.foldl_nil, encStep]
    by_cases h : (b!"encoding ").isPrefixOf l = true
    · simp [h]
    · simp [h]

theorem parseHeaders_fwd {ls : List Bytes} (h : ∀ l ∈ ls, Line l) {last : Bytes} (hl : c!"\n" ∉ last) {tail : Bytes} (ht : tail.head? = some c!"\n" ∨ tail = [])
    (hlt : last ≠ [] → tail = []) {n : Nat} (hn : ls.length + 1 < n) (enc : Option Bytes) :
    parseHeaders n c!"\n" (unlines ls ++ last ++ tail) enc = .ok ((ls ++ if last = [] then [] else [last]).foldl encStep enc, tail) := by
  induction ls generalizing n enc with
  | nil =>
    cases n with
    | zero => simp at hn
    | succ n =>
      cases last with
      | nil =>
        show parseHeaders (n + 1) c!"\n" tail enc = _
        cases tail with
        | nil => rfl
        | cons c t =>
          have : c = c!"\n" := by simpa using ht
          subst this
          simp [parseHeaders]
      | cons c t =>
        have e := hlt (by simp)
        subst e
        have hc : c ≠ c!"\n" := fun e => hl (by simp [e])
        have e : unlines [] ++ c :: t ++ [] = c :: t := by simp [unlines]
        rw [e, parseHeaders]
        dsimp only
        rw [if_neg (by simp [hc]), take_last hl, drop_last hl]
        cases n with
        | zero => simp at hn
        | succ n =>
          simp only [List.drop_nil, parseHeaders]
          simp [encStep]
  | cons l ls ih =>
    cases n with
    | zero => simp at hn
    | succ n =>
      obtain ⟨h1, h2⟩ := h l (by simp)
      rw [List.append_assoc, unlines_cons]
      cases l with
      | nil => exact absurd rfl h1
      | cons c t =>
        have hc : c ≠ c!"\n" := fun e => h2 (by simp [e])
        rw [List.cons_append, parseHeaders]
        dsimp only
        rw [if_neg (by simp [hc])]
        have e1 : (c :: (t ++ c!"\n" :: (unlines ls ++ (last ++ tail)))) = (c :: t) ++ c!"\n" :: (unlines ls ++ (last ++ tail)) := rfl
        rw [e1, take_line h2, drop_line h2, isPrefixOf_line (by decide)]
        have e2 : ((c :: t) ++ c!"\n" :: (unlines ls ++ (last ++ tail))).contains c!"\n" = true := by simp
        rw [if_pos e2]
        have := ih (fun l' h' => h l' (List.mem_cons_of_mem _ h')) (n := n) (by simp at hn; omega) (encStep enc (c :: t))
        rw [List.append_assoc] at this
        simp only [List.drop_succ_cons, List.drop_zero]
        exact this

/-! ### backward -/

theorem parseParents_inv {size : Nat} (hs : 0 < size) {n : Nat} {b r : Bytes} {ids : List Bytes} (h : parseParents size n b = .ok (ids, r)) :
    ∃ ps, List.Forall₂ (IdLine size b!"parent ") ids ps ∧ b = unlines ps ++ r := by
  induction n generalizing b ids with
  | zero => cases h
  | succ n ih =>
    rw [parseParents] at h
    cases hp : parseOidHeader size b!"parent " b with
    | ub => rw [hp] at h; cases h
    | err e =>
      rw [hp] at h
      obtain ⟨rfl, rfl⟩ := Prod.mk.inj (Res.ok.inj h)
      exact ⟨[], .nil, rfl⟩
    | ok q =>
      rw [hp] at h
      dsimp only at h
      obtain ⟨l, hl, rfl⟩ := (parseOidHeader_iff hs).1 (show parseOidHeader size b!"parent " b = .ok (q.1, q.2) from hp)
      cases hq : parseParents size n q.2 with
      | ub => rw [hq] at h; cases h
      | err e => rw [hq] at h; cases h
      | ok q' =>
        rw [hq] at h
        obtain ⟨rfl, rfl⟩ := Prod.mk.inj (Res.ok.inj h)
        obtain ⟨ps, h1, h2⟩ := ih (show parseParents size n q.2 = .ok (q'.1, q'.2) from hq)
        exact ⟨l :: ps, .cons hl h1, by rw [unlines_cons, h2]⟩

theorem parseParents_ne_ub {size : Nat} (hs : 0 < size) {n : Nat} {b : Bytes} (h : b.length < n) : parseParents size n b ≠ .ub := by
  induction n generalizing b with
  | zero => simp at h
  | succ n ih =>
    rw [parseParents]
    cases hp : parseOidHeader size b!"parent " b with
    | ub => exact absurd hp parseOidHeader_ne_ub
    | err e => simp
    | ok q =>
      obtain ⟨l, hl, rfl⟩ := (parseOidHeader_iff hs).1 (show parseOidHeader size b!"parent " b = .ok (q.1, q.2) from hp)
      dsimp only
      have := ih (b := q.2) (by simp at h; omega)
      cases hq : parseParents size n q.2 with
      | ub => exact absurd hq this
      | err e => simp
      | ok q' => simp

theorem skipAuthors_inv {n : Nat} {b r : Bytes} (h : skipAuthors n b = .ok r) :
    ∃ as, (∀ l ∈ as, ∃ s, SigLine b!"author " s l) ∧ b = unlines as ++ r := by
  induction n generalizing b with
  | zero => cases h
  | succ n ih =>
    rw [skipAuthors] at h
    by_cases hc : (b!"author ").isPrefixOf b = true
    · rw [if_pos hc] at h
      cases hp : parse b b!"author " c!"\n" with
      | ub => rw [hp] at h; cases h
      | err e => rw [hp] at h; cases h
      | ok q =>
        rw [hp] at h
        obtain ⟨l, hl, rfl⟩ := (sigparse_iff (by decide) (by decide)).1 (show parse b b!"author " c!"\n" = .ok (q.1, q.2) from hp)
        obtain ⟨as, h1, h2⟩ := ih h
        refine ⟨l :: as, ?_, by rw [unlines_cons, h2]⟩
        intro l' hl'
        rcases List.mem_cons.mp hl' with rfl | hl'
        · exact ⟨_, hl⟩
        · exact h1 _ hl'
    · rw [if_neg hc] at h
      obtain rfl := Res.ok.inj h
      exact ⟨[], by simp, rfl⟩

theorem skipAuthors_ne_ub {n : Nat} {b : Bytes} (h : b.length < n) : skipAuthors n b ≠ .ub := by
  induction n generalizing b with
  | zero => simp at h
  | succ n ih =>
    rw [skipAuthors]
    by_cases hc : (b!"author ").isPrefixOf b = true
    · rw [if_pos hc]
      cases hp : parse b b!"author " c!"\n" with
      | ub => exact absurd hp (C12_safe _ _ _)
      | err e => simp
      | ok q =>
        obtain ⟨l, hl, rfl⟩ := (sigparse_iff (by decide) (by decide)).1 (show parse b b!"author " c!"\n" = .ok (q.1, q.2) from hp)
        exact ih (by simp at h; omega)
    · rw [if_neg hc]; simp

theorem parseHeaders_inv {n : Nat} {b : Bytes} {enc : Option Bytes} (hn : b.length < n) :
    ∃ ls last tail, (∀ l ∈ ls, Line l) ∧ c!"\n" ∉ last ∧ (tail.head? = some c!"\n" ∨ tail = []) ∧ (last ≠ [] → tail = []) ∧
      b = unlines ls ++ last ++ tail ∧ parseHeaders n c!"\n" b enc = .ok ((ls ++ if last = [] then [] else [last]).foldl encStep enc, tail) := by
  induction n generalizing b enc with
  | zero => simp at hn
  | succ n ih =>
    by_cases hh : b.head? = some c!"\n" ∨ b = []
    · refine ⟨[], [], b, by simp, by simp, hh, by simp, by simp [unlines], ?_⟩
      rcases hh with hh | rfl
      · cases b with
        | nil => cases hh
        | cons c t =>
          have : c = c!"\n" := by simpa using hh
          subst this
          simp [parseHeaders]
      · simp [parseHeaders]
    · obtain ⟨h1, h2⟩ := not_or.mp hh
      cases b with
      | nil => exact absurd rfl h2
      | cons c t =>
        have hc : c ≠ c!"\n" := by simpa using h1
        by_cases hm : c!"\n" ∈ c :: t
        · obtain ⟨l, r, e, hl⟩ := split_line hm
          have hl0 : l ≠ [] := by
            rintro rfl
            injection e with e1 _
            exact hc e1
          obtain ⟨ls, last, tail, g1, g2, g3, g4, g5, g6⟩ := ih (b := r) (enc := encStep enc l) (by
            have := congrArg List.length e
            simp at this hn; omega)
          refine ⟨l :: ls, last, tail, ?_, g2, g3, g4, by rw [e, List.append_assoc, unlines_cons, g5, List.append_assoc], ?_⟩
          · intro l' hl'
            rcases List.mem_cons.mp hl' with rfl | hl'
            · exact ⟨hl0, hl⟩
            · exact g1 _ hl'
          · rw [parseHeaders]
            dsimp only
            rw [if_neg (by simp [hc]), e, take_line hl, drop_line hl, isPrefixOf_line (by decide)]
            have e2 : (l ++ c!"\n" :: r).contains c!"\n" = true := by simp
            rw [if_pos e2]
            simp only [List.drop_succ_cons, List.drop_zero]
            rw [show (if (b!"encoding ").isPrefixOf l = true then some (cstr (l.drop 9)) else enc) = encStep enc l from rfl, g6]
            rfl
        · refine ⟨[], c :: t, [], by simp, hm, .inr rfl, by simp, by simp [unlines], ?_⟩
          rw [parseHeaders]
          dsimp only
          rw [if_neg (by simp [hc]), take_last hm, drop_last hm]
          cases n with
          | zero => simp at hn
          | succ n =>
            simp only [List.drop_nil, parseHeaders]
            simp [encStep]

end Verif.Commit
