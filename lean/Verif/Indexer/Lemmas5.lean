import Verif.Indexer.Lemmas4
/-! # Appending -/
namespace Verif.Indexer
open Spec Verif.Pack Verif.Pack.Spec

/-- the state with which the entries are read after a piece has come -/
def fed (s : St) (d : Bytes) : St := { hashPartially s d with file := s.file ++ d }

theorem fed_same {s : St} (h : Kept s) (d : Bytes) : Kept (fed s d) ∧ (fed s d).parsed = s.parsed ∧ (fed s d).nr = s.nr ∧ (fed s d).off = s.off ∧ (fed s d).stream = s.stream ∧
    core (fed s d) = core s ∧ (fed s d).injected = s.injected ∧ (fed s d).file = s.file ++ d := by
  obtain ⟨h1, h2⟩ := hashPartially_kept h d
  refine ⟨h1, ?_, ?_, ?_, ?_, ?_, ?_, rfl⟩ <;> (unfold fed; rw [h2]) <;> rfl

theorem append_fed {E : Env} {s : St} (h : Kept s) {d : Bytes} (hd : d.length < 2 ^ 31) : append E s d =
    if s.parsed then readLoop E ((s.file ++ d).length + 1) (fed s d)
    else if (s.file ++ d).length % 2 ^ 32 < 12 then .ok (fed s d)
    else parseHeader (fed s d) >>= fun s => readLoop E (s.file.length + 1) s := by
  have hm : d.length % 2 ^ 32 = d.length := Nat.mod_eq_of_lt (by omega)
  have hp := (fed_same h d).2.1
  unfold append
  rw [if_neg (by omega), hm, List.take_length]
  have h2 := (hashPartially_kept h d).2
  have : ({ hashPartially s d with file := (hashPartially s d).file ++ d } : St) = fed s d := by
    unfold fed; rw [h2]
  show (if ({ hashPartially s d with file := (hashPartially s d).file ++ d } : St).parsed = true
    then readLoop E (({ hashPartially s d with file := (hashPartially s d).file ++ d } : St).file.length + 1) { hashPartially s d with file := (hashPartially s d).file ++ d }
    else if ({ hashPartially s d with file := (hashPartially s d).file ++ d } : St).file.length % 2 ^ 32 < 12 then Res.ok { hashPartially s d with file := (hashPartially s d).file ++ d }
    else parseHeader { hashPartially s d with file := (hashPartially s d).file ++ d } >>= fun s => readLoop E (s.file.length + 1) s) = _
  rw [this, hp]
  rfl

theorem inv_fed {E : Env} {F : Bytes} {s : St} {ents : List Ent} {cur : Nat} (H : Inv E F s ents cur) (hk : Kept s) {d : Bytes} (hf : ∃ X, F = s.file ++ d ++ X) :
    Inv E F (fed s d) ents cur := by
  obtain ⟨_, f1, f2, f3, f4, f5, f6, f7⟩ := fed_same hk d
  refine ⟨hf, H.run, H.entry, by rw [f5]; exact H.made, ?_, ?_⟩
  · rw [f4, f3]; exact H.none
  · intro st h
    rw [f4] at h
    obtain ⟨g1, g2⟩ := H.some st h
    exact ⟨g1, ⟨by rw [f3]; exact g2.le, g2.room, g2.head, by rw [f3]; exact g2.lt⟩⟩

/-- the state after the header -/
def begun (s : St) (n : Nat) : St := { s with parsed := true, nr := n, off := 12, indexed := 0 }

theorem inv_begun {E : Env} {F : Bytes} {s : St} (n : Nat) (hc : core s = {}) (hs : s.stream = none) (hf : ∃ X, F = s.file ++ X) : Inv E F (begun s n) [] 12 := by
  refine ⟨hf, rfl, (fun e he => nomatch he), ?_, fun _ => rfl, ?_⟩
  · have : core (begun s n) = { core s with indexed := 0 } := rfl
    rw [this, hc]; rfl
  · intro st h
    have h : s.stream = some st := h
    rw [hs] at h; cases h

theorem turned_nil (E : Env) (F : Bytes) (nr : Nat) : Turned E F nr [] := by
  intro a e b c h _
  cases a <;> cases h

theorem append_good {E : Env} (hz : Zlib E.inflate) {F : Bytes} {s s' : St} (G : Good E F s) {d : Bytes} (hd : d.length < 2 ^ 31) (hf : ∃ X, F = s.file ++ d ++ X)
    (h : append E s d = .ok s') : Good E F s' ∧ s'.file = s.file ++ d ∧ (s.stream = none → s'.stream = none ∨ s'.file.length < s'.off + 20) := by
  obtain ⟨k, f1, f2, f3, f4, f5, f6, f7⟩ := fed_same G.kept d
  rw [append_fed G.kept hd] at h
  have done : ∀ (s1 : St) (ents : List Ent) (cur : Nat) (fuel : Nat), s1.file = s.file ++ d → Kept s1 → s1.injected = 0 → s1.parsed = true → Hdr F s1.nr → Inv E F s1 ents cur →
      Turned E F s1.nr ents → readLoop E fuel s1 = .ok s' → Good E F s' ∧ s'.file = s.file ++ d ∧ (s1.stream = none → s'.stream = none ∨ s'.file.length < s'.off + 20) := by
    intro s1 ents cur fuel g1 g2 g3 g4 g5 g6 g7 g8
    obtain ⟨q1, q2, ents', cur', q3, q4⟩ := loop_inv hz fuel g6 g7 g8
    refine ⟨⟨q3.front, ?_, by rw [q1.injected, g3], fun hp => ?_, fun _ => ⟨by rw [q1.nr]; exact g5, ents', cur', q3, q4⟩⟩, by rw [q1.file, g1], q2⟩
    · unfold Kept
      rw [q1.hashed, q1.inbuf, q1.file]
      exact g2
    · rw [q1.parsed, g4] at hp; cases hp
  by_cases hp : s.parsed = true
  · rw [if_pos hp] at h
    obtain ⟨hh, ents, cur, H, T⟩ := G.entries hp
    have := done (fed s d) ents cur _ f7 k (by rw [f6]; exact G.injected) (by rw [f1]; exact hp) (by rw [f2]; exact hh) (inv_fed H G.kept hf) (by rw [f2]; exact T) h
    rw [f4] at this
    exact this
  · rw [if_neg hp] at h
    obtain ⟨e1, e2, e3, e4⟩ := G.fresh (by simpa using hp)
    have hl : (s.file ++ d).length < 2 ^ 32 := by rw [List.length_append]; omega
    rw [Nat.mod_eq_of_lt hl] at h
    by_cases h12 : (s.file ++ d).length < 12
    · rw [if_pos h12] at h
      cases h
      refine ⟨⟨hf, k, by rw [f6]; exact G.injected, fun _ => ⟨by rw [f7]; exact h12, by rw [f4]; exact e2, by rw [f5]; exact e3, by rw [f2]; exact e4⟩, fun hp' => ?_⟩, f7,
        fun _ => .inl (by rw [f4]; exact e2)⟩
      rw [f1] at hp'
      exact absurd hp' hp
    · rw [if_neg h12] at h
      obtain ⟨X, hX⟩ := hf
      rcases parseHeader_cases (s := fed s d) (X := X) (by rw [f7]; omega) with ⟨n, hn, hq⟩ | ⟨_, hq⟩
      · rw [hq, Res.bind_ok] at h
        rw [f7, ← hX] at hn
        have := done (begun (fed s d) n) [] 12 _ f7 k (by show (fed s d).injected = 0; rw [f6]; exact G.injected) rfl hn
          (inv_begun n (by rw [f5]; exact e3) (by rw [f4]; exact e2) ⟨X, hX⟩) (turned_nil _ _ _) h
        exact ⟨this.1, this.2.1, fun _ => this.2.2 (by show (fed s d).stream = none; rw [f4]; exact e2)⟩
      · rw [hq] at h; cases h

theorem appendAll_good {E : Env} (hz : Zlib E.inflate) {F : Bytes} : ∀ (ds : List Bytes) {s s' : St}, Good E F s → (∀ d ∈ ds, d.length < 2 ^ 31) → F = s.file ++ ds.flatten →
    appendAll E ds s = .ok s' → Good E F s' ∧ s'.file = F := by
  intro ds
  induction ds with
  | nil =>
    intro s s' G _ hf h
    cases h
    exact ⟨G, by rw [hf]; simp⟩
  | cons d ds ih =>
    intro s s' G hd hf h
    have h : append E s d >>= appendAll E ds = .ok s' := h
    cases ha : append E s d with
    | err e => rw [ha] at h; cases h
    | ub => rw [ha] at h; cases h
    | ok s1 =>
      rw [ha, Res.bind_ok] at h
      rw [List.flatten_cons, ← List.append_assoc] at hf
      obtain ⟨g1, g2, _⟩ := append_good hz G (hd d List.mem_cons_self) ⟨_, hf⟩ ha
      exact ih g1 (fun x hx => hd x (List.mem_cons_of_mem _ hx)) (by rw [g2]; exact hf) h

/-- a pack whose entries are `all` -/
structure Full (E : Env) (F : Bytes) (all : List Ent) (n : Nat) (c : Core) : Prop where
  run : Run 12 all (F.length - 20)
  room : 32 ≤ F.length
  entry : ∀ e ∈ all, EntF E F e
  made : putAll E F all {} = .ok c
  turned : Turned E F n all
  hdr : Hdr F n

theorem full_prefix {E : Env} {F : Bytes} {all : List Ent} {n : Nat} {c : Core} (A : Full E F all n c) {s : St} {ents : List Ent} {cur : Nat} (H : Inv E F s ents cur) :
    ∃ rest, all = ents ++ rest := by
  rcases run_compare A.run H.run A.entry H.entry with ⟨x, hx, hr⟩ | ⟨x, hx, _⟩
  · cases x with
    | nil => exact ⟨[], by rw [hx]; simp⟩
    | cons e x =>
      have h1 := hr.1
      have := (H.entry e (by rw [hx]; simp)).room
      omega
  · exact ⟨x, hx⟩

theorem run_length {E : Env} {F : Bytes} {l : List Ent} : ∀ {a b : Nat}, Run a l b → (∀ e ∈ l, EntF E F e) → a + l.length ≤ b := by
  induction l with
  | nil => intro a b h _; cases h; exact Nat.le_refl _
  | cons e l ih =>
    intro a b h hl
    have := ih h.2 fun e' he => hl e' (List.mem_cons_of_mem _ he)
    have := (entF_lt (hl e List.mem_cons_self)).2
    have := h.1
    rw [List.length_cons]
    omega

theorem append_full {E : Env} (hz : Zlib E.inflate) {F : Bytes} {all : List Ent} {n : Nat} {c : Core} (A : Full E F all n c) {s : St} (G : Good E F s) {d : Bytes} (hd : d.length < 2 ^ 31)
    (hf : ∃ X, F = s.file ++ d ++ X) :
    ∃ s', append E s d = .ok s' ∧ (s'.file = F → s'.parsed = true ∧ s'.stream = none ∧ s'.off + 20 = F.length ∧ core s' = c) := by
  obtain ⟨k, f1, f2, f3, f4, f5, f6, f7⟩ := fed_same G.kept d
  rw [append_fed G.kept hd]
  have hlen := run_length A.run A.entry
  have hroom := A.room
  have done : ∀ (s1 : St) (ents : List Ent) (cur : Nat), s1.parsed = true → s1.nr = n → Inv E F s1 ents cur →
      ∃ s', readLoop E (s1.file.length + 1) s1 = .ok s' ∧ (s'.file = F → s'.parsed = true ∧ s'.stream = none ∧ s'.off + 20 = F.length ∧ core s' = c) := by
    intro s1 ents cur hp hn H
    obtain ⟨rest, hr⟩ := full_prefix A H
    obtain ⟨s', ents', rest', cur', q1, q2, q3, q4⟩ := loop_all hz A.run (by omega) A.entry A.made (s1.file.length + 1) H hr (by rw [hn]; exact A.turned)
    refine ⟨s', q1, fun hF => ?_⟩
    obtain ⟨r1, _, _⟩ := loop_inv hz _ H (by
      rw [hn]
      intro a e b c' he hc
      exact A.turned a e (b ++ rest) c' (by rw [hr, he]; simp) hc) q1
    have hF1 : s1.file = F := by rw [← r1.file]; exact hF
    have hl2 : rest.length ≤ all.length := by rw [hr, List.length_append]; omega
    have := q4 hF1 (by rw [hF1]; omega)
    subst this
    rw [List.append_nil] at q3
    subst q3
    have hcur : cur' = F.length - 20 := by
      rcases run_compare q2.run A.run q2.entry A.entry with ⟨x, hx, hh⟩ | ⟨x, hx, hh⟩
      · have := List.append_right_eq_self.mp hx.symm; subst this; exact hh
      · have := List.append_right_eq_self.mp hx.symm; subst this; exact hh.symm
    have hs : s'.stream = none := by
      cases hs : s'.stream with
      | none => rfl
      | some st =>
        obtain ⟨g1, g2⟩ := q2.some st hs
        have := g2.room
        omega
    refine ⟨by rw [r1.parsed]; exact hp, hs, by have := q2.none hs; omega, ?_⟩
    have := q2.made
    rw [A.made] at this
    cases this
    rfl
  by_cases hp : s.parsed = true
  · rw [if_pos hp]
    obtain ⟨hh, ents, cur, H, T⟩ := G.entries hp
    rw [← f7]
    exact done (fed s d) ents cur (by rw [f1]; exact hp) (by rw [f2]; exact hdr_unique hh A.hdr) (inv_fed H G.kept hf)
  · rw [if_neg hp]
    obtain ⟨e1, e2, e3, e4⟩ := G.fresh (by simpa using hp)
    have hl : (s.file ++ d).length < 2 ^ 32 := by rw [List.length_append]; omega
    rw [Nat.mod_eq_of_lt hl]
    by_cases h12 : (s.file ++ d).length < 12
    · rw [if_pos h12]
      refine ⟨_, rfl, fun hF => ?_⟩
      rw [f7] at hF
      rw [hF] at h12
      omega
    · rw [if_neg h12]
      obtain ⟨X, hX⟩ := hf
      rcases parseHeader_cases (s := fed s d) (X := X) (by rw [f7]; omega) with ⟨m, hn, hq⟩ | ⟨hn, hq⟩
      · rw [hq, Res.bind_ok]
        rw [f7, ← hX] at hn
        exact done (begun (fed s d) m) [] 12 rfl (hdr_unique hn A.hdr) (inv_begun m (by rw [f5]; exact e3) (by rw [f4]; exact e2) ⟨X, hX⟩)
      · exfalso
        rw [f7, ← hX] at hn
        exact hn n A.hdr

theorem appendAll_full {E : Env} (hz : Zlib E.inflate) {F : Bytes} {all : List Ent} {n : Nat} {c : Core} (A : Full E F all n c) : ∀ (ds : List Bytes) {s : St}, Good E F s →
    (∀ d ∈ ds, d.length < 2 ^ 31) → F = s.file ++ ds.flatten → (s.file = F → s.parsed = true ∧ s.stream = none ∧ s.off + 20 = F.length ∧ core s = c) →
    ∃ s', appendAll E ds s = .ok s' ∧ Good E F s' ∧ s'.file = F ∧ s'.parsed = true ∧ s'.stream = none ∧ s'.off + 20 = F.length ∧ core s' = c := by
  intro ds
  induction ds with
  | nil =>
    intro s G _ hf h
    have hF : s.file = F := by rw [hf]; simp
    exact ⟨s, rfl, G, hF, h hF⟩
  | cons d ds ih =>
    intro s G hd hf _
    rw [List.flatten_cons, ← List.append_assoc] at hf
    obtain ⟨s1, h1, h2⟩ := append_full hz A G (hd d List.mem_cons_self) ⟨_, hf⟩
    obtain ⟨g1, g2, _⟩ := append_good hz G (hd d List.mem_cons_self) ⟨_, hf⟩ h1
    show ∃ s', append E s d >>= appendAll E ds = .ok s' ∧ _
    rw [h1, Res.bind_ok]
    exact ih g1 (fun x hx => hd x (List.mem_cons_of_mem _ hx)) (by rw [g2]; exact hf) h2

/-- what committing looks at -/
theorem commit_congr {E : Env} {fuel : Nat} {s s' : St} (h : ({ s with stream := none, inbuf := [] } : St) = { s' with stream := none, inbuf := [] }) : commit E fuel s = commit E fuel s' := by
  have h1 : s.parsed = s'.parsed := by injection h
  have h2 : s.off = s'.off := by injection h
  have h3 : s.file = s'.file := by injection h
  have h4 : s.hashed = s'.hashed := by injection h
  unfold commit
  rw [h, h1, h2, h3, h4]

theorem state_eq {E : Env} {F : Bytes} {s s' : St} (G : Good E F s) (G' : Good E F s') (hf : s.file = F) (hf' : s'.file = F) (hp : s.parsed = true) (hp' : s'.parsed = true)
    (ho : s.off = s'.off) (hc : core s = core s') : ({ s with stream := none, inbuf := [] } : St) = { s' with stream := none, inbuf := [] } := by
  have hn := hdr_unique (G.entries hp).1 (G'.entries hp').1
  have hk := (kept_unique G.kept G'.kept (by rw [hf, hf'])).1
  have hi : s.injected = s'.injected := by rw [G.injected, G'.injected]
  have hff : s.file = s'.file := by rw [hf, hf']
  cases s
  cases s'
  dsimp only [core] at *
  simp only [Core.mk.injEq] at hc
  obtain ⟨c1, c2, c3, c4⟩ := hc
  subst hp hp' hn hk hi hff ho c1 c2 c3 c4
  rfl

/-- what `git_indexer_commit` wants -/
theorem commit_ok {E : Env} {fuel : Nat} {s : St} {r : Done} (h : commit E fuel s = some (.ok r)) : s.parsed = true ∧ s.off + 20 = s.file.length ∧ E.sha s.hashed = s.file.drop (s.file.length - 20) ∧
    ∃ s', resolveDeltas E fuel fuel { s with stream := none, inbuf := [] } = some (.ok s') ∧ writeOut E s' (E.sha s.hashed) = .ok r := by
  unfold commit at h
  by_cases hp : s.parsed = true
  · rw [if_neg (by rw [hp]; decide)] at h
    by_cases h1 : s.off + 20 < s.file.length
    · rw [if_pos h1] at h; cases h
    · rw [if_neg h1] at h
      by_cases h2 : s.off + 20 > s.file.length
      · rw [if_pos h2] at h; cases h
      · rw [if_neg h2] at h
        by_cases h3 : E.sha s.hashed ≠ s.file.drop (s.file.length - 20)
        · rw [if_pos h3] at h; cases h
        · rw [if_neg h3] at h
          refine ⟨hp, by omega, Decidable.not_not.mp h3, ?_⟩
          cases hr : resolveDeltas E fuel fuel { s with stream := none, inbuf := [] } with
          | none => rw [hr] at h; cases h
          | some x =>
            rw [hr] at h
            cases x with
            | ub => cases h
            | err e => cases h
            | ok s' => exact ⟨s', rfl, by simpa using h⟩
  · rw [if_pos (by simpa using hp)] at h; cases h

theorem index_ok {E : Env} {fuel : Nat} {ps : List Bytes} {r : Done} (h : index E fuel ps = some (.ok r)) : ∃ s, appendAll E ps {} = .ok s ∧ commit E fuel s = some (.ok r) := by
  unfold index at h
  cases ha : appendAll E ps {} with
  | ok s => rw [ha] at h; exact ⟨s, rfl, h⟩
  | err e => rw [ha] at h; cases h
  | ub => rw [ha] at h; cases h

/-- what can be left unread: where the entries end -/
theorem rest_nil {E : Env} {F : Bytes} {s s' : St} {ents x : List Ent} {cur cur' : Nat} (H : Inv E F s ents cur) (H' : Inv E F s' (ents ++ x) cur') (hr : Run cur x cur')
    (ho : s.off + 20 = F.length) (hc : cur' + 20 ≤ F.length) : x = [] := by
  cases x with
  | nil => rfl
  | cons e x =>
    exfalso
    have he := H'.entry e (by simp)
    have hle := (run_le hr.2 fun y hy => H'.entry y (by simp [hy])).1
    have hoff := hr.1
    have := (entF_lt he).2
    cases hs : s.stream with
    | none =>
      have := H.none hs
      have := he.room
      omega
    | some st =>
      obtain ⟨h1, h2⟩ := H.some st hs
      have h3 := he.head
      rw [hoff, ← h1, h2.head] at h3
      simp only [Res.ok.injEq, Prod.mk.injEq] at h3
      have h4 := he.stream
      have h5 := he.after
      rw [← h3.2.2] at h4 h5
      have := h2.lt _ _ h4
      omega

theorem cur_le {E : Env} {F : Bytes} {s : St} {ents : List Ent} {cur : Nat} (H : Inv E F s ents cur) (ho : s.off + 20 = F.length) : cur + 20 ≤ F.length := by
  cases hs : s.stream with
  | none => have := H.none hs; omega
  | some st =>
    obtain ⟨h1, h2⟩ := H.some st hs
    have := h2.room
    omega

theorem core_eq {E : Env} {F : Bytes} {s s' : St} {ents ents' : List Ent} {cur cur' : Nat} (H : Inv E F s ents cur) (H' : Inv E F s' ents' cur') (ho : s.off + 20 = F.length)
    (ho' : s'.off + 20 = F.length) : core s = core s' := by
  have he : ents = ents' := by
    rcases run_compare H.run H'.run H.entry H'.entry with ⟨x, hx, hr⟩ | ⟨x, hx, hr⟩
    · subst hx
      rw [rest_nil H H' hr ho (cur_le H' ho')]; simp
    · subst hx
      rw [rest_nil H' H hr ho' (cur_le H ho)]; simp
  subst he
  have h1 := H.made
  rw [H'.made] at h1
  exact (Res.ok.inj h1).symm

theorem agree {E : Env} (hz : Zlib E.inflate) {fuel : Nat} {ps qs : List Bytes} {r r' : Done} (hp : ∀ d ∈ ps, d.length < 2 ^ 31) (hq : ∀ d ∈ qs, d.length < 2 ^ 31)
    (he : ps.flatten = qs.flatten) (h : index E fuel ps = some (.ok r)) (h' : index E fuel qs = some (.ok r')) : r = r' := by
  obtain ⟨s, a1, a2⟩ := index_ok h
  obtain ⟨s', b1, b2⟩ := index_ok h'
  obtain ⟨G, hf⟩ := appendAll_good hz ps (good_start E ps.flatten) hp rfl a1
  obtain ⟨G', hf'⟩ := appendAll_good hz qs (good_start E ps.flatten) hq he b1
  obtain ⟨c1, c2, _⟩ := commit_ok a2
  obtain ⟨d1, d2, _⟩ := commit_ok b2
  obtain ⟨_, ents, cur, H, _⟩ := G.entries c1
  obtain ⟨_, ents', cur', H', _⟩ := G'.entries d1
  rw [hf] at c2
  rw [hf'] at d2
  have := commit_congr (E := E) (fuel := fuel) (state_eq G G' hf hf' c1 d1 (by omega) (core_eq H H' c2 d2))
  rw [a2, b2] at this
  simpa using this

theorem whole {E : Env} (hz : Zlib E.inflate) {fuel : Nat} {F : Bytes} {r : Done} (hF : F.length < 2 ^ 31) (h : index E fuel [F] = some (.ok r)) {ps : List Bytes}
    (hp : ∀ d ∈ ps, d.length < 2 ^ 31) (he : ps.flatten = F) : index E fuel ps = some (.ok r) := by
  obtain ⟨s, a1, a2⟩ := index_ok h
  have a1' : append E {} F = .ok s := by
    have : append E {} F >>= appendAll E [] = .ok s := a1
    cases hx : append E {} F with
    | ok s1 => rw [hx, Res.bind_ok] at this; cases this; rfl
    | err e => rw [hx] at this; cases this
    | ub => rw [hx] at this; cases this
  obtain ⟨G, hf, hstr⟩ := append_good hz (good_start E F) hF ⟨[], by simp⟩ a1'
  have hf : s.file = F := hf
  obtain ⟨c1, c2, _⟩ := commit_ok a2
  have hs : s.stream = none := by
    rcases hstr rfl with h | h
    · exact h
    · omega
  obtain ⟨hh, ents, cur, H, T⟩ := G.entries c1
  rw [hf] at c2
  have hcur := H.none hs
  have A : Full E F ents s.nr (core s) := by
    refine ⟨?_, ?_, H.entry, H.made, T, hh⟩
    · have := H.run
      rw [show F.length - 20 = cur by omega]; exact this
    · have := (run_le H.run H.entry).1
      omega
  obtain ⟨s', b1, G', hf', b2, b3, b4, b5⟩ := appendAll_full hz A ps (good_start E F) hp (by rw [he]; rfl) (by
    intro h0
    have h0 : ([] : Bytes) = F := h0
    have := A.room
    rw [← h0] at this
    exact absurd this (by decide))
  unfold index
  rw [b1]
  dsimp only
  rw [← commit_congr (state_eq G G' hf hf' c1 b2 (by omega) b5.symm)]
  exact a2

end Verif.Indexer
