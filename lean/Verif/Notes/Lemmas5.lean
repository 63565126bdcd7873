import Verif.Notes.Lemmas4
import Verif.TreeDiff.Props
/-! # Going through the notes -/
namespace Verif.Notes
open Spec IndexTree
open IndexTree.Spec (trees conv)

/-- a note with its path, digits and id -/
inductive Way (odb : Odb) : List Tree.Entry → Bytes → Bytes → Bytes → Prop where
  | here {es : List Tree.Entry} {e : Tree.Entry} : e ∈ es → e.isTree = false → Way odb es e.name e.name e.oid
  | inside {es sub : List Tree.Entry} {e : Tree.Entry} {a b : UInt8} {p t id : Bytes} : e ∈ es → e.isTree = true → e.name = [a, b] → lookupTree odb e.oid = .ok sub → Way odb sub p t id →
      Way odb es (a :: b :: c!"/" :: p) (a :: b :: t) id

theorem way_iff_at {odb : Odb} {es : List Tree.Entry} {t id : Bytes} : (∃ p, Way odb es p t id) ↔ At odb es t id := by
  constructor
  · rintro ⟨p, h⟩
    induction h with
    | here h1 h2 => exact .here h1 h2
    | inside h1 h2 h3 h4 _ ih => exact .inside h1 h2 h3 h4 ih
  · intro h
    induction h with
    | here h1 h2 => exact ⟨_, .here h1 h2⟩
    | inside h1 h2 h3 h4 _ ih =>
      obtain ⟨p, hp⟩ := ih
      exact ⟨_, .inside h1 h2 h3 h4 hp⟩

theorem two {s : Bytes} (h : s.length = 2) : ∃ a b, s = [a, b] := by
  rcases s with _ | ⟨a, _ | ⟨b, _ | ⟨c, s⟩⟩⟩
  · cases h
  · cases h
  · exact ⟨a, b, rfl⟩
  · simp at h

theorem any_of_digit {s : Bytes} (h : ∀ c ∈ s, Digit c) : ∀ c ∈ s, AnyDigit c := fun c hc => digit_any c (h c hc)

theorem trees_ok {odb : Odb} {id : Bytes} {es : List Tree.Entry} (h : lookupTree odb id = .ok es) : trees odb id = some (es.map conv) := by
  unfold trees; rw [h]

theorem good_of {k n : Nat} {odb blobs : Odb} {es : List Tree.Entry} (h : NoteTree True k odb blobs n es) : TreeDiff.Spec.Good (trees odb) (es.map conv) := by
  induction h with
  | @mk n es h1 h2 h3 h4 h5 h6 h7 h8 h9 ih =>
    have sub : ∀ d ∈ es.map conv, d.isTree = true → ∃ e ∈ es, d = conv e ∧ e.isTree = true ∧ e.name.length = 2 ∧ ∀ c ∈ e.name, AnyDigit c := by
      intro d hd ht
      obtain ⟨e, he, rfl⟩ := List.mem_map.mp hd
      rw [conv_isTree (h4 e he).1] at ht
      obtain ⟨g1, g2⟩ := h9 trivial e he
      rcases g2 with g2 | g2
      · exact ⟨e, he, rfl, ht, g2.2, any_of_digit g1⟩
      · rw [ht] at g2; exact absurd g2.1 (by simp)
    refine .mk ⟨?_, ?_⟩ ?_ ?_
    · intro d hd
      obtain ⟨e, he, rfl⟩ := List.mem_map.mp hd
      exact ⟨(h4 e he).2.1.1, (h4 e he).2.2.1, (h4 e he).2.1.2.1⟩
    · rw [List.pairwise_map]
      refine h2.imp_of_mem ?_
      intro a b ha hb hlt
      rw [key_conv (h4 a ha).1, key_conv (h4 b hb).1]
      exact hlt
    · intro d hd ht
      obtain ⟨e, he, rfl, g1, g2, g3⟩ := sub d hd ht
      obtain ⟨s, hs⟩ := h6 e he g1 g2 g3
      show trees odb e.oid ≠ none
      rw [trees_ok hs]; simp
    · intro d hd ht s hs
      obtain ⟨e, he, rfl, g1, g2, g3⟩ := sub d hd ht
      obtain ⟨s', hs'⟩ := h6 e he g1 g2 g3
      have hs : trees odb e.oid = some s := hs
      rw [trees_ok hs'] at hs
      cases hs
      exact ih e he g1 g2 g3 s' hs'

theorem way_of_path {k n : Nat} {odb blobs : Odb} {es : List Tree.Entry} (h : NoteTree True k odb blobs n es) : ∀ {p : Bytes} {d : TreeDiff.Entry}, TreeDiff.Spec.At (trees odb) (es.map conv) p d →
    d.isTree = false → ∃ u, Way odb es p u d.id := by
  induction h with
  | @mk n es h1 h2 h3 h4 h5 h6 h7 h8 h9 ih =>
    intro p d hat hd
    generalize hes : es.map conv = ds at hat
    cases hat with
    | here hm =>
      subst hes
      obtain ⟨e, he, rfl⟩ := List.mem_map.mp hm
      have ht := hd
      rw [conv_isTree (h4 e he).1] at ht
      refine ⟨e.name, ?_⟩
      have : TreeDiff.Spec.key (conv e) = e.name := by unfold TreeDiff.Spec.key; rw [hd]; rfl
      rw [this]
      exact .here he ht
    | @inside _ sub d2 _ q hm ht hs hin =>
      subst hes
      obtain ⟨e, he, rfl⟩ := List.mem_map.mp hm
      rw [conv_isTree (h4 e he).1] at ht
      obtain ⟨g1, g2⟩ := h9 trivial e he
      rcases g2 with g2 | g2
      · obtain ⟨s', hs'⟩ := h6 e he ht g2.2 (any_of_digit g1)
        have hs : trees odb e.oid = some sub := hs
        rw [trees_ok hs'] at hs
        cases hs
        obtain ⟨u, hu⟩ := ih e he ht g2.2 (any_of_digit g1) s' hs' hin hd
        obtain ⟨a, b, hab⟩ := two g2.2
        refine ⟨a :: b :: u, ?_⟩
        have : (conv e).name ++ b!"/" ++ q = a :: b :: c!"/" :: q := by show e.name ++ b!"/" ++ q = _; rw [hab]; rfl
        rw [this]
        exact .inside he ht hab hs' hu
      · rw [ht] at g2; exact absurd g2.1 (by simp)

theorem path_of_way {k n : Nat} {odb blobs : Odb} {es : List Tree.Entry} (h : NoteTree True k odb blobs n es) : ∀ {p u i : Bytes}, Way odb es p u i →
    ∃ d, TreeDiff.Spec.At (trees odb) (es.map conv) p d ∧ d.isTree = false ∧ d.id = i := by
  induction h with
  | @mk n es h1 h2 h3 h4 h5 h6 h7 h8 h9 ih =>
    intro p u i hw
    cases hw with
    | @here _ e he ht =>
      have hd : (conv e).isTree = false := by rw [conv_isTree (h4 e he).1]; exact ht
      refine ⟨conv e, ?_, hd, rfl⟩
      have : TreeDiff.Spec.key (conv e) = e.name := by unfold TreeDiff.Spec.key; rw [hd]; rfl
      rw [← this]
      exact .here (List.mem_map.mpr ⟨e, he, rfl⟩)
    | @inside _ sub e a b q t _ he ht hab hs hin =>
      have hl : e.name.length = 2 := by rw [hab]; rfl
      obtain ⟨d, k1, k2, k3⟩ := ih e he ht hl (any_of_digit (h9 trivial e he).1) sub hs hin
      refine ⟨d, ?_, k2, k3⟩
      have : (conv e).name ++ b!"/" ++ q = a :: b :: c!"/" :: q := by show e.name ++ b!"/" ++ q = _; rw [hab]; rfl
      rw [← this]
      exact .inside (List.mem_map.mpr ⟨e, he, rfl⟩) (by rw [conv_isTree (h4 e he).1]; exact ht) (trees_ok hs) k1

theorem fromhex_digit : ∀ c : UInt8, Digit c → c ≠ c!"/" ∧ ¬ Oid.fromhex c < 0 := by unfold Digit; decide +kernel

theorem strip_digits {s : Bytes} (h : ∀ c ∈ s, Digit c) : strip s = some s := by
  induction s with
  | nil => rfl
  | cons c s ih =>
    obtain ⟨h1, h2⟩ := fromhex_digit c (h c (by simp))
    rw [strip, if_neg h1, if_neg h2, ih (fun x hx => h x (by simp [hx]))]
    rfl

theorem way_strip {k n : Nat} {odb blobs : Odb} {es : List Tree.Entry} (h : NoteTree True k odb blobs n es) : 2 ∣ n → ∀ {p u i : Bytes}, Way odb es p u i →
    strip p = some u ∧ u.length = n ∧ ∀ c ∈ u, Digit c := by
  induction h with
  | @mk n es h1 h2 h3 h4 h5 h6 h7 h8 h9 ih =>
    intro hn p u i hw
    cases hw with
    | @here _ e he ht =>
      obtain ⟨g1, g2⟩ := h9 trivial e he
      rcases g2 with g2 | g2
      · rw [ht] at g2; exact absurd g2.1 (by simp)
      · exact ⟨strip_digits g1, g2.2, g1⟩
    | @inside _ sub e a b q t _ he ht hab hs hin =>
      have hl : e.name.length = 2 := by rw [hab]; rfl
      have hd := (h9 trivial e he).1
      rw [hab] at hd
      obtain ⟨k1, k2, k3⟩ := ih e he ht hl (any_of_digit (h9 trivial e he).1) sub hs (by omega) hin
      have ha := hd a (by simp)
      have hb := hd b (by simp)
      have h0 : n ≠ 0 := by
        rintro rfl
        have := h7 e he ht hl (any_of_digit (h9 trivial e he).1) sub hs
        have ht0 : t = [] := List.length_eq_zero_iff.mp k2
        -- a path without digits
        generalize hq : q = q' at hin
        cases hin with
        | @here _ x hx hxt => exact ((nt_iff.mp this).ent x hx).2.1.1 ht0
        | inside => cases ht0
      refine ⟨?_, ?_, ?_⟩
      · rw [strip, if_neg (fromhex_digit a ha).1, if_neg (fromhex_digit a ha).2, strip, if_neg (fromhex_digit b hb).1, if_neg (fromhex_digit b hb).2, strip, if_pos rfl, k1]; rfl
      · simp only [List.length_cons]; omega
      · intro c hc
        simp only [List.mem_cons] at hc
        rcases hc with rfl | rfl | hc
        · exact ha
        · exact hb
        · exact k3 c hc

theorem lt_same_len {x y : Bytes} (hl : x.length = y.length) (hne : x ≠ y) {s t : Bytes} (s' t' : Bytes) (h : x ++ s < y ++ t) : x ++ s' < y ++ t' := by
  induction x generalizing y with
  | nil =>
    cases y with
    | nil => exact absurd rfl hne
    | cons b y => cases hl
  | cons a x ih =>
    cases y with
    | nil => cases hl
    | cons b y =>
      simp only [List.cons_append, List.cons_lt_cons_iff] at h ⊢
      rcases h with h | ⟨rfl, h⟩
      · exact Or.inl h
      · exact Or.inr ⟨rfl, ih (by simpa using hl) (fun e => hne (by rw [e])) h⟩

theorem way_lt {k n : Nat} {odb blobs : Odb} {es : List Tree.Entry} (h : NoteTree True k odb blobs n es) : 2 ∣ n → ∀ {p q u v i j : Bytes}, Way odb es p u i → Way odb es q v j →
    p < q → u < v := by
  induction h with
  | @mk n es h1 h2 h3 h4 h5 h6 h7 h8 h9 ih =>
    intro hn p q u v i j hp hq hlt
    have h : NoteTree True k odb blobs n es := .mk h1 h2 h3 h4 h5 h6 h7 h8 h9
    -- a file and a directory
    have mixed : ∀ {e d : Tree.Entry} {a b : UInt8}, e ∈ es → e.isTree = false → d ∈ es → d.isTree = true → d.name = [a, b] →
        ∃ x s, e.name = x ++ s ∧ x.length = [a, b].length ∧ x ≠ [a, b] := by
      intro e d a b he het hd hdt hdn
      have hdl : d.name.length = 2 := by rw [hdn]; rfl
      have hel : e.name.length = n := by
        rcases (h9 trivial e he).2 with g | g
        · rw [het] at g; exact absurd g.1 (by simp)
        · exact g.2
      have hpos : 0 < e.name.length := List.length_pos_iff.mpr (h4 e he).2.1.1
      have hle : 2 ≤ e.name.length := by omega
      refine ⟨e.name.take 2, e.name.drop 2, (List.take_append_drop 2 e.name).symm, by simp; omega, ?_⟩
      intro hx
      refine h8 d hd hdt hdl e he hel (any_of_digit (h9 trivial e he).1) ?_
      rw [hdn, ← hx]
      exact List.take_prefix 2 e.name
    cases hp with
    | @here _ e he het =>
      cases hq with
      | @here _ e2 he2 het2 => exact hlt
      | @inside _ sub2 d a b q' v' _ hd hdt hdn hs2 hin2 =>
        obtain ⟨x, s, hx, hxl, hxn⟩ := mixed he het hd hdt hdn
        rw [hx] at hlt ⊢
        exact lt_same_len (t := c!"/" :: q') hxl hxn s v' hlt
    | @inside _ sub d a b p' u' _ hd hdt hdn hs hin =>
      cases hq with
      | @here _ e he het =>
        obtain ⟨x, s, hx, hxl, hxn⟩ := mixed he het hd hdt hdn
        rw [hx] at hlt ⊢
        exact lt_same_len (s := c!"/" :: p') hxl.symm (Ne.symm hxn) u' s hlt
      | @inside _ sub2 d2 a2 b2 q' v' _ hd2 hdt2 hdn2 hs2 hin2 =>
        by_cases hdd : [a, b] = [a2, b2]
        · have := nodup_inj h1 hd hd2 (by rw [hdn, hdn2, hdd])
          subst this
          rw [hs] at hs2; cases hs2
          cases hdd
          have hlt' : p' < q' := by
            simp only [List.cons_lt_cons_iff] at hlt
            rcases hlt with h | ⟨_, h | ⟨_, h | ⟨_, h⟩⟩⟩
            · exact absurd h (by simp)
            · exact absurd h (by simp)
            · exact absurd h (by simp)
            · exact h
          have hdl : d.name.length = 2 := by rw [hdn]; rfl
          have := ih d hd hdt hdl (any_of_digit (h9 trivial d hd).1) sub hs (by omega) hin hin2 hlt'
          simp only [List.cons_lt_cons_iff, true_and]
          exact Or.inr (Or.inr this)
        · exact lt_same_len (x := [a, b]) (y := [a2, b2]) (s := c!"/" :: p') (t := c!"/" :: q') rfl hdd u' v' hlt

end Verif.Notes
