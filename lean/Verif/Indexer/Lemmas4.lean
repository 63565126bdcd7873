import Verif.Indexer.Lemmas3
/-! # Any pieces -/
namespace Verif.Indexer
open Spec Verif.Pack Verif.Pack.Spec

/-- every entry was read while there were objects to come -/
def Turned (E : Env) (F : Bytes) (nr : Nat) (ents : List Ent) : Prop :=
  ∀ a e b c, ents = a ++ e :: b → putAll E F a {} = .ok c → c.indexed < nr

/-- the fields that reading entries leaves alone -/
structure Same (s s' : St) : Prop where
  file : s'.file = s.file
  hashed : s'.hashed = s.hashed
  inbuf : s'.inbuf = s.inbuf
  parsed : s'.parsed = s.parsed
  nr : s'.nr = s.nr
  injected : s'.injected = s.injected

theorem Same.refl (s : St) : Same s s := ⟨rfl, rfl, rfl, rfl, rfl, rfl⟩
theorem Same.trans {a b c : St} (h : Same a b) (g : Same b c) : Same a c :=
  ⟨g.file.trans h.file, g.hashed.trans h.hashed, g.inbuf.trans h.inbuf, g.parsed.trans h.parsed, g.nr.trans h.nr, g.injected.trans h.injected⟩

theorem snoc_eq {α : Type} {l a b : List α} {x e : α} (h : l ++ [x] = a ++ e :: b) : (∃ b', b = b' ++ [x] ∧ l = a ++ e :: b') ∨ (b = [] ∧ l = a ∧ e = x) := by
  rcases List.eq_nil_or_concat b with rfl | ⟨b', y, rfl⟩
  · right
    have := List.append_inj' h rfl
    refine ⟨rfl, this.1, ?_⟩
    have := this.2
    simp only [List.cons.injEq, and_true] at this
    exact this.symm
  · left
    rw [List.concat_eq_append, show a ++ e :: (b' ++ [y]) = (a ++ e :: b') ++ [y] by simp] at h
    have := List.append_inj' h rfl
    refine ⟨b', ?_, this.1⟩
    have := this.2
    simp only [List.cons.injEq, and_true] at this
    rw [List.concat_eq_append, this]

theorem turned_snoc {E : Env} {F : Bytes} {nr : Nat} {ents : List Ent} (h : Turned E F nr ents) {c : Core} (hc : putAll E F ents {} = .ok c) (hlt : c.indexed < nr) (e : Ent) :
    Turned E F nr (ents ++ [e]) := by
  intro a x b c' he hp
  rcases snoc_eq he with ⟨b', _, h2⟩ | ⟨_, h2, _⟩
  · exact h a x b' c' h2 hp
  · subst h2
    rw [hc] at hp
    cases hp
    exact hlt

/-- the loop keeps what is known -/
theorem loop_inv {E : Env} (hz : Zlib E.inflate) {F : Bytes} : ∀ (fuel : Nat) {s s' : St} {ents : List Ent} {cur : Nat}, Inv E F s ents cur → Turned E F s.nr ents →
    readLoop E fuel s = .ok s' → Same s s' ∧ (s.stream = none → s'.stream = none ∨ s'.file.length < s'.off + 20) ∧ ∃ ents' cur', Inv E F s' ents' cur' ∧ Turned E F s'.nr ents' := by
  intro fuel
  induction fuel with
  | zero =>
    intro s s' ents cur H T h
    cases h
    exact ⟨.refl _, fun h => .inl h, ents, cur, H, T⟩
  | succ fuel ih =>
    intro s s' ents cur H T h
    unfold readLoop at h
    by_cases hi : s.indexed < s.nr
    · rw [if_pos hi] at h
      rcases step_cases hz H with ⟨s1, r, H1, f1, f2, f3, f4, f5, f6, f7, f8, f9⟩ | ⟨r1, r2, _⟩ | ⟨e, s1, hE, hc, hl, r, H1, f0, f1, f2, f3, f4, f5, f6⟩
      · rw [r] at h
        cases h
        refine ⟨⟨f1, f2, f3, f4, f5, f6⟩, fun hs => ?_, ents, cur, H1, by rw [f5]; exact T⟩
        rcases f8 hs with g | g
        · exact .inl g.1
        · exact .inr (by rw [f1]; exact g)
      · cases hr : readObject E s with
        | ready x => exact absurd hr (r2 x)
        | wait x => exact absurd hr (r1 x)
        | fail e => rw [hr] at h; cases h
        | ub => rw [hr] at h; cases h
      · rw [r] at h
        have := ih H1 (by rw [f5]; exact turned_snoc T H.made hi e) h
        exact ⟨Same.trans ⟨f1, f2, f3, f4, f5, f6⟩ this.1, fun _ => this.2.1 f0, this.2.2⟩
    · rw [if_neg hi] at h
      cases h
      exact ⟨.refl _, fun h => .inl h, ents, cur, H, T⟩

/-- when the data is a pack whose entries are `all` the loop does not fail, and with all the data it reads all -/
theorem loop_all {E : Env} (hz : Zlib E.inflate) {F : Bytes} {all : List Ent} {call : Core} (hall : Run 12 all (F.length - 20)) (h20 : 20 ≤ F.length)
    (hent : ∀ e ∈ all, EntF E F e) (hput : putAll E F all {} = .ok call) : ∀ (fuel : Nat) {s : St} {ents rest : List Ent} {cur : Nat},
    Inv E F s ents cur → all = ents ++ rest → Turned E F s.nr all →
    ∃ s' ents' rest' cur', readLoop E fuel s = .ok s' ∧ Inv E F s' ents' cur' ∧ all = ents' ++ rest' ∧ (s.file = F → rest.length < fuel → rest' = []) := by
  intro fuel
  induction fuel with
  | zero => intro s ents rest cur H ha T; exact ⟨s, ents, rest, cur, rfl, H, ha, fun _ h => absurd h (Nat.not_lt_zero _)⟩
  | succ fuel ih =>
    intro s ents rest cur H ha T
    unfold readLoop
    have hrest : Run cur rest (F.length - 20) := by
      rcases run_compare hall H.run hent H.entry with ⟨x, hx, hr⟩ | ⟨x, hx, hr⟩
      · rw [hx, List.append_assoc] at ha
        have hn : x ++ rest = [] := List.append_right_eq_self.mp ha.symm
        rw [List.append_eq_nil_iff] at hn
        obtain ⟨rfl, rfl⟩ := hn
        cases hr
        exact rfl
      · rw [ha] at hx
        have := List.append_cancel_left hx
        subst this
        exact hr
    have hcurle : cur ≤ F.length - 20 := (run_le hrest fun e he => hent e (by rw [ha]; exact List.mem_append_right _ he)).1
    by_cases hi : s.indexed < s.nr
    · rw [if_pos hi]
      rcases step_cases hz H with ⟨s1, r, H1, f1, f2, f3, f4, f5, f6, f7, f8, f9⟩ | ⟨r1, r2, r3⟩ | ⟨e, s1, hE, hc, hl, r, H1, f0, f1, f2, f3, f4, f5, f6⟩
      · rw [r]
        refine ⟨s1, ents, rest, cur, rfl, H1, ha, fun hF _ => ?_⟩
        cases rest with
        | nil => rfl
        | cons e rest =>
          exfalso
          have he := hent e (by rw [ha]; simp)
          have := f9 e he hrest.1
          rw [hF] at this
          have := (run_le hrest.2 fun x hx => hent x (by rw [ha]; simp [hx])).1
          omega
      · exfalso
        cases rest with
        | nil =>
          have hcur : cur = F.length - 20 := hrest
          obtain ⟨X, hX⟩ := H.front
          have hlen : s.file.length ≤ F.length := by rw [hX, List.length_append]; omega
          cases hs : s.stream with
          | none =>
            have := H.none hs
            exact r1 s (by unfold readObject; rw [if_pos (by omega)])
          | some st =>
            obtain ⟨g1, g2⟩ := H.some st hs
            have := g2.room
            omega
        | cons e rest =>
          have he := hent e (by rw [ha]; simp)
          rw [ha, putAll_append, H.made, Res.bind_ok] at hput
          cases hp : put E F (core s) e with
          | ok c => exact r3 e he hrest.1 c hp
          | err x =>
            have hput' : (put E F (core s) e >>= putAll E F rest) = .ok call := hput
            rw [hp] at hput'; cases hput'
          | ub =>
            have hput' : (put E F (core s) e >>= putAll E F rest) = .ok call := hput
            rw [hp] at hput'; cases hput'
      · rw [r]
        dsimp only
        cases rest with
        | nil =>
          have hcur : cur = F.length - 20 := hrest
          have := hE.room
          omega
        | cons e' rest =>
          have he := hent e' (by rw [ha]; simp)
          have := entF_unique he hE (by rw [hc]; exact hrest.1)
          subst this
          obtain ⟨s', ents', rest', cur', g1, g2, g3, g4⟩ := ih (s := s1) (ents := ents ++ [e']) (rest := rest) H1 (by rw [ha]; simp) (by rw [f5]; exact T)
          refine ⟨s', ents', rest', cur', g1, g2, g3, fun hF hlen => g4 (by rw [f1]; exact hF) ?_⟩
          rw [List.length_cons] at hlen
          omega
    · rw [if_neg hi]
      refine ⟨s, ents, rest, cur, rfl, H, ha, fun _ _ => ?_⟩
      cases rest with
      | nil => rfl
      | cons e rest =>
        exfalso
        exact hi (T ents e rest (core s) ha H.made)

/-! ## the header -/

theorem rd32_prefix (f x : Bytes) (off : Nat) (h : off + 4 ≤ f.length) : rd32 (f ++ x) off = rd32 f off := by
  unfold rd32 slice
  rw [if_pos h, if_pos (by rw [List.length_append]; omega), drop_append_take _ _ _ _ h]

theorem rd32_ok (f : Bytes) (off : Nat) (h : off + 4 ≤ f.length) : ∃ n, rd32 f off = .ok n := by
  unfold rd32 slice
  rw [if_pos h]
  have hl : ((f.drop off).take 4).length = 4 := by rw [List.length_take, List.length_drop]; omega
  match hh : (f.drop off).take 4, hl with
  | [a, b, c, d], _ => exact ⟨_, rfl⟩

/-- the header of a pack of `n` entries -/
def Hdr (F : Bytes) (n : Nat) : Prop := rd32 F 0 = .ok 0x5041434b ∧ rd32 F 4 = .ok 2 ∧ ∃ m, rd32 F 8 = .ok m ∧ n = m.toNat

theorem hdr_unique {F : Bytes} {n n' : Nat} (h : Hdr F n) (h' : Hdr F n') : n = n' := by
  obtain ⟨_, _, m, h1, rfl⟩ := h
  obtain ⟨_, _, m', h1', rfl⟩ := h'
  rw [h1] at h1'
  cases h1'
  rfl

theorem parseHeader_cases {s : St} {X : Bytes} (h : 12 ≤ s.file.length) :
    (∃ n, Hdr (s.file ++ X) n ∧ parseHeader s = .ok { s with parsed := true, nr := n, off := 12, indexed := 0 }) ∨
    ((∀ n, ¬ Hdr (s.file ++ X) n) ∧ parseHeader s = .err (-1)) := by
  obtain ⟨a, ha⟩ := rd32_ok s.file 0 (by omega)
  obtain ⟨b, hb⟩ := rd32_ok s.file 4 (by omega)
  obtain ⟨c, hc⟩ := rd32_ok s.file 8 (by omega)
  have ha' := rd32_prefix s.file X 0 (by omega)
  have hb' := rd32_prefix s.file X 4 (by omega)
  have hc' := rd32_prefix s.file X 8 (by omega)
  unfold parseHeader Hdr
  rw [ha', hb', hc', ha, hb, hc, Res.bind_ok, Res.bind_ok, Res.bind_ok]
  by_cases h1 : a ≠ 0x5041434b
  · rw [if_pos h1]
    right
    refine ⟨fun n hh => h1 ?_, rfl⟩
    have := hh.1
    cases this
    rfl
  · rw [if_neg h1]
    by_cases h2 : b ≠ 2
    · rw [if_pos h2]
      right
      refine ⟨fun n hh => h2 ?_, rfl⟩
      have := hh.2.1
      cases this
      rfl
    · rw [if_neg h2]
      left
      refine ⟨c.toNat, ⟨?_, ?_, c, rfl, rfl⟩, rfl⟩
      · rw [Decidable.not_not.mp h1]
      · rw [Decidable.not_not.mp h2]

/-! ## appending -/

/-- what is known between two calls of `git_indexer_append` -/
structure Good (E : Env) (F : Bytes) (s : St) : Prop where
  front : ∃ X, F = s.file ++ X
  kept : Kept s
  injected : s.injected = 0
  fresh : s.parsed = false → s.file.length < 12 ∧ s.stream = none ∧ core s = {} ∧ s.nr = 0
  entries : s.parsed = true → Hdr F s.nr ∧ ∃ ents cur, Inv E F s ents cur ∧ Turned E F s.nr ents

theorem good_start (E : Env) (F : Bytes) : Good E F {} :=
  ⟨⟨F, rfl⟩, ⟨rfl, rfl⟩, rfl, fun _ => ⟨by decide, rfl, rfl, rfl⟩, fun h => nomatch h⟩

end Verif.Indexer
