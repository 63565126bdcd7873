import Verif.Revwalk.Lemmas5
/-! # The whole walk -/
namespace Verif.Revwalk
open Graph (Repo Reaches Proper Closed Acyclic edges)
open Spec

variable {g : Repo} {o : Opts} {calls : List (Nat × Bool)}

theorem reaches_lt (hcl : Closed g) {c x : Nat} (hr : Reaches g c x) (hc : c < g.n) : x < g.n := by
  induction hr with
  | refl => exact hc
  | step h1 h2 _ ih => exact ih (hcl _ _ h1 _ h2)

theorem older_proper (h : Older g) {c x : Nat} (hp : Proper g c x) : g.time x < g.time c := by
  have hle : ∀ c x, Reaches g c x → g.time x ≤ g.time c := by
    intro c x hr
    induction hr with
    | refl => exact Int.le_refl _
    | step h1 h2 _ ih => have := h _ _ _ h1 h2; omega
  obtain ⟨ps, p, h1, h2, h3⟩ := hp
  have := h c ps p h1 h2
  have := hle p x h3
  omega

/-- the commits that are going to be sorted -/
structure Listed (g : Repo) (o : Opts) (calls : List (Nat × Bool)) (s : WS) (L : List Nat) : Prop where
  nodup : L.Nodup
  lt : ∀ x ∈ L, x < g.n
  parsed : ∀ x ∈ L, s.parsed x = true
  reach : ∀ x ∈ L, ∃ p, Pushed calls p ∧ Reaches g p x
  up : ∀ x ∈ L, s.unint x = true → ∀ ps p, g.parents x = some ps → p ∈ ps → s.unint p = true
  hidden : ∀ x, Hidden calls x → s.unint x = true
  cb : ∀ x ∈ L, o.hides x = false
  complete : o.hideCb = none → o.firstParent = false → ∀ x, Wanted g calls x → x ∈ L ∧ s.unint x = false
  exact : o.hideCb = none → o.firstParent = false → Datable g calls → ∀ x ∈ L, ∀ h, Hidden calls h → Reaches g h x → s.unint x = true

theorem Inv.listed {s : WS} {l out : List Nat} {T : Int} (hcl : Closed g) (hlt : ∀ c ∈ calls, c.1 < g.n) (hi : Inv g o (Hidden calls) (Pushed calls) s l out) (he : Ended g s l T)
    (hcb : ∀ x ∈ out, o.hides x = false)
    (hex : o.hideCb = none → o.firstParent = false → Datable g calls → ∀ x ∈ out, ∀ h, Hidden calls h → Reaches g h x → s.unint x = true) :
    Listed g o calls s out.reverse where
  nodup := (List.reverse_perm out).nodup_iff.2 hi.nd
  lt := fun x hx => by
    obtain ⟨p, h1, h2⟩ := hi.outr x (List.mem_reverse.1 hx)
    exact reaches_lt hcl h2 (hlt _ h1)
  parsed := fun x hx => (hi.ap x (hi.os x (List.mem_reverse.1 hx))).1
  reach := fun x hx => hi.outr x (List.mem_reverse.1 hx)
  up := fun x hx hu ps p h1 h2 => hi.ua x ps p hu (hi.os x (List.mem_reverse.1 hx)) h1 h2
  hidden := fun x hx => (hi.hu x hx).1
  cb := fun x hx => hcb x (List.mem_reverse.1 hx)
  complete := fun e1 e2 x hx => by
    obtain ⟨⟨p, h1, h2⟩, h3⟩ := hx
    obtain ⟨a, b⟩ := hi.complete he e1 e2 h1 h2 h3
    exact ⟨List.mem_reverse.2 a, b⟩
  exact := fun e1 e2 hd x hx h hh hr => hex e1 e2 hd x (List.mem_reverse.1 hx) h hh hr

theorem missing_unreadable (h : Missing g (Hidden calls) (Pushed calls)) : Unreadable g calls := by
  obtain ⟨x, r, h1, h2, h3⟩ := h
  rcases h1 with h1 | h1
  · exact ⟨_, h1, x, h2, h3⟩
  · exact ⟨_, h1, x, h2, h3⟩

/-- what the listing of a walk gives -/
def listing (g : Repo) (o : Opts) (hid : Bool) (s : WS) (l : List Nat) : Res (WS × List Nat) :=
  if limited o hid then limitList g o l s else lazyLoop g o (l.length + edges g + 1) l s []

/-- Gathering the commits given and listing what they lead to. -/
theorem listing_ok (hcl : Closed g) (hlt : ∀ c ∈ calls, c.1 < g.n) {parsed : Nat → Bool} (hok : ∀ x, parsed x = true → ∃ ps, g.parents x = some ps) {w : Pre}
    (hw : Called calls ⟨⟨parsed, fun _ => false, fun _ => false, fun _ => false⟩, [], false, false⟩ w) :
    ((gather g w.input w.s [] >>= fun r => listing g o w.hid r.1 r.2) = .err (-1) ∧ Unreadable g calls) ∨
    ∃ s L, (gather g w.input w.s [] >>= fun r => listing g o w.hid r.1 r.2) = .ok (s, L) ∧ Listed g o calls s L := by
  have hun : ∀ c, w.s.unint c = true ↔ Hidden calls c := by intro c; rw [hw.unint c]; simp
  obtain ⟨l0, hin, hsub, hall⟩ := hw.input
  have hin : w.input = l0 := by rw [hin]; simp
  have hinm : ∀ c ∈ w.input, ∃ h, (c, h) ∈ calls := by
    intro c hc
    rw [hin] at hc
    have := hsub.subset hc
    rw [List.mem_reverse, List.mem_map] at this
    obtain ⟨⟨a, b⟩, h1, h2⟩ := this
    exact ⟨b, by rw [← h2]; exact h1⟩
  have hsn : w.s.seen = fun _ => false := hw.seen
  rcases gather_ok (H := Hidden calls) hcl w.input w.s [] (fun c hc => by obtain ⟨h, h1⟩ := hinm c hc; exact hlt _ h1) (by intro x hx; rw [hw.parsed] at hx; exact hok x hx) (by simp)
    (by intro c; rw [hsn]; simp) List.nodup_nil (fun c hc => ⟨c, (hun c).1 hc, .refl c⟩) with ⟨e, c, hc, hn⟩ | ⟨s, l, e, hg⟩
  · left
    rw [e]
    obtain ⟨h, h1⟩ := hinm c hc
    exact ⟨rfl, _, h1, c, .refl c, hn⟩
  rw [e, Res.bind_ok]
  obtain ⟨m, hm1, hm2⟩ := hg.list
  rw [List.nil_append] at hm1
  subst hm1
  have hadd : ∀ c, s.added c = false := by intro c; rw [hg.added, hw.added]
  have hlm : ∀ c, c ∈ l ↔ ∃ h, (c, h) ∈ calls := by
    intro c
    constructor
    · intro h; exact hinm c (hm2.subset h)
    · rintro ⟨h, hc⟩
      apply hg.all
      rcases hall c h hc with h | h
      · rw [hin]; exact h
      · cases h
  have hH : ∀ c, Hidden calls c → s.unint c = true := fun c hc => hg.unint c ((hun c).2 hc)
  have hlU : ∀ c ∈ l, s.unint c = true ∨ Pushed calls c := by
    intro c hc
    obtain ⟨h, hc⟩ := (hlm c).1 hc
    cases h with
    | true => exact .inl (hH c hc)
    | false => exact .inr hc
  have hi : Inv g o (Hidden calls) (Pushed calls) s l [] :=
    { ok := hg.ok
      lt := fun c hc => by obtain ⟨h, h1⟩ := (hlm c).1 hc; exact hlt _ h1
      lp := hg.parsed
      ls := fun c hc => (hg.seen c).2 hc
      la := fun c _ h => by rw [hadd c] at h; cases h
      ap := fun c h => by rw [hadd c] at h; cases h
      os := fun c hc => by cases hc
      nd := List.nodup_nil
      cnt := fun c _ => by rw [List.nil_append]; exact List.nodup_iff_count.1 hg.nodup c
      ur := hg.ur
      lr := fun c hc => (hlU c hc).imp id (fun h => ⟨c, h, .refl c⟩)
      outr := fun c hc => by cases hc
      sl := fun c hc => .inl ((hg.seen c).1 hc)
      ua := fun c _ _ _ h => by rw [hadd c] at h; cases h
      as := fun _ _ c _ _ h => by rw [hadd c] at h; cases h
      ao := fun _ c h => by rw [hadd c] at h; cases h
      hu := fun c hc => ⟨hH c hc, (hg.seen c).2 ((hlm c).2 ⟨_, hc⟩)⟩
      pu := fun c hc => (hg.seen c).2 ((hlm c).2 ⟨_, hc⟩) }
  have hfuel : l.length + pend g s.added ≤ l.length + edges g + 1 := by have := pend_le g s.added; omega
  unfold listing
  by_cases hlim : limited o w.hid = true
  · rw [if_pos hlim]
    unfold limitList
    -- the list by the first or the second kind of dates
    by_cases hdat : Datable g calls
    · obtain ⟨S, hS1, hS2, hnn⟩ : ∃ S : Nat → Prop, (Dated g S s l maxTime []) ∧ ((∀ y, S y) ∨ ∀ c x, Proper g c x → g.time x < g.time c) ∧ NotNewer g := by
        rcases hdat with ⟨h1, h2⟩ | ⟨h1, h2⟩
        · refine ⟨fun y => y ∉ l, ⟨?_, ?_, ?_, fun h => absurd rfl h, by simp⟩, .inr (fun c x => older_proper h1), fun c ps p a b => Int.le_of_lt (h1 c ps p a b)⟩
          · rw [List.pairwise_iff_forall_sublist]
            intro a b hab hb
            exact absurd (hab.subset (by simp)) hb
          · intro y hy hm
            rw [(hg.seen y).2 hm] at hy; cases hy
          · intro _ y hy z hz h3 h4
            right
            refine h2 y z ?_ ?_
            · rcases hlU y hy with h | h
              · rw [h] at h3; cases h3
              · exact h
            · rcases hlU z hz with h | h
              · rw [h] at h4; cases h4
              · exact h
        · refine ⟨fun _ => True, ⟨?_, fun _ _ => trivial, fun _ _ _ _ _ _ _ => .inl trivial, fun h => absurd rfl h, by simp⟩, .inl fun _ => trivial, h1⟩
          have h3 : ((calls.map (·.1)).reverse).Pairwise fun a b => g.time a ≥ g.time b := by
            rw [List.pairwise_reverse, List.pairwise_map]
            exact h2
          have h4 : l.Pairwise fun a b => g.time a ≥ g.time b := List.Pairwise.sublist (hm2.trans (by rw [hin]; exact hsub)) h3
          exact h4.imp (fun h _ => h)
      rcases limitLoop_ok (S := S) (D := o.hideCb = none) (fun e => ⟨hnn, e⟩) hcl (l.length + edges g + 1) l s SLOP maxTime [] hi (fun _ => hS1) hfuel with ⟨h1, h2⟩ | ⟨s', l', T', out', h1, h2, h3, h4⟩
      · exact .inl ⟨h1, missing_unreadable h2⟩
      · refine .inr ⟨s', _, h1, h2.listed hcl hlt h4 (fun x hx => limitLoop_cb _ _ _ _ _ _ _ _ (by simp) h1 x (List.mem_reverse.2 hx)) ?_⟩
        intro e1 e2 _ x hx h hh hr
        exact h2.exact h4 e1 e2 (h3 e1) hnn hS2 hh hr hx
    · rcases limitLoop_ok (S := fun _ => True) (D := False) (fun e => e.elim) hcl (l.length + edges g + 1) l s SLOP maxTime [] hi (fun e => e.elim) hfuel with ⟨h1, h2⟩ | ⟨s', l', T', out', h1, h2, h3, h4⟩
      · exact .inl ⟨h1, missing_unreadable h2⟩
      · exact .inr ⟨s', _, h1, h2.listed hcl hlt h4 (fun x hx => limitLoop_cb _ _ _ _ _ _ _ _ (by simp) h1 x (List.mem_reverse.2 hx)) (fun _ _ h => absurd h hdat)⟩
  · rw [if_neg hlim]
    have hlim : limited o w.hid = false := by simpa using hlim
    unfold limited at hlim
    simp only [Bool.or_eq_false_iff] at hlim
    obtain ⟨⟨⟨⟨q1, _⟩, _⟩, _⟩, q5⟩ := hlim
    have hcb0 : o.hideCb = none := by
      cases h : o.hideCb with
      | none => rfl
      | some f => rw [h] at q5; cases q5
    have hnoH : ∀ c, ¬Hidden calls c := by
      intro c hc
      rcases hw.hid' ⟨c, hc⟩ with h | ⟨x, h⟩
      · rw [q1] at h; cases h
      · cases h
    have hu0 : ∀ c, s.unint c = false := hg.none (fun c => by
      cases h : w.s.unint c with
      | false => rfl
      | true => exact absurd ((hun c).1 h) (hnoH c))
    rcases lazyLoop_ok hcl (l.length + edges g + 1) l s [] hu0 hi hfuel with ⟨h1, h2⟩ | ⟨s', out', h1, h2, h3⟩
    · exact .inl ⟨h1, missing_unreadable h2⟩
    · refine .inr ⟨s', _, h1, h2.listed (T := 0) hcl hlt (.inl rfl) ?_ (fun _ _ _ x _ h hh => absurd hh (hnoH h))⟩
      intro x _
      unfold Opts.hides
      rw [hcb0]

end Verif.Revwalk
