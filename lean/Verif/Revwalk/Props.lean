import Verif.Revwalk.Lemmas6
import Verif.Graph.Props
/-! # C29: walks give what was asked for, in order -/
namespace Verif.Revwalk
open Graph (Repo Reaches Proper Closed Acyclic edges)
open Spec

variable {g : Repo} {o : Opts} {calls : List (Nat × Bool)} {parsed : Nat → Bool}

theorem ordered_eq (g : Repo) (o : Opts) (hid : Bool) (s : WS) (l : List Nat) : ordered g o hid s l = (listing g o hid s l >>= fun r =>
    (if o.topo then topoSort g o r.1 r.2 else if o.time then timeSort g r.2 else .ok r.2) >>= fun l => .ok (r.1, l)) := by
  unfold ordered listing
  by_cases h : limited o hid = true
  · rw [if_pos h, if_pos h]
  · rw [if_neg h, if_neg h]
    have h : limited o hid = false := by simpa using h
    unfold limited at h
    simp only [Bool.or_eq_false_iff] at h
    obtain ⟨⟨⟨⟨_, h1⟩, h2⟩, _⟩, _⟩ := h
    rw [h1, h2]
    cases lazyLoop g o (l.length + edges g + 1) l s [] with
    | ok r => rfl
    | err e => rfl
    | ub => rfl

/-- all that holds of a walk -/
structure Walked (g : Repo) (o : Opts) (calls : List (Nat × Bool)) (out : List Nat) : Prop where
  nodup : out.Nodup
  reach : ∀ x ∈ out, ∃ p, Pushed calls p ∧ Reaches g p x
  hidden : ∀ x ∈ out, ¬Hidden calls x
  cb : ∀ x ∈ out, o.hides x = false
  complete : o.hideCb = none → o.firstParent = false → ∀ x, Wanted g calls x → x ∈ out
  exact : o.hideCb = none → o.firstParent = false → Datable g calls → ∀ x ∈ out, ∀ h, Hidden calls h → ¬Reaches g h x
  topo : o.topo = true → (if o.reverse then out.reverse else out).Pairwise fun a b => ∀ ps, g.parents b = some ps → a ∉ ps
  newest : o.topo = true → o.time = true → ∀ pre c post, (if o.reverse then out.reverse else out) = pre ++ c :: post → ∀ y ∈ post,
    (∀ x ∈ out, ∀ ps, g.parents x = some ps → y ∈ ps → x ∈ pre) → g.time y ≤ g.time c
  time : o.topo = false → o.time = true → (if o.reverse then out.reverse else out).Pairwise fun a b => g.time a ≥ g.time b

theorem walk_ok (hg : History g) (hlt : ∀ c ∈ calls, c.1 < g.n) (hok : ∀ x, parsed x = true → ∃ ps, g.parents x = some ps) :
    (walk g o parsed calls = .err (-1) ∧ Unreadable g calls) ∨ ∃ out, walk g o parsed calls = .ok out ∧ Walked g o calls out := by
  unfold walk
  simp only
  have hw := pushes_ok calls ⟨⟨parsed, fun _ => false, fun _ => false, fun _ => false⟩, [], false, false⟩
  revert hw
  generalize pushes ⟨⟨parsed, fun _ => false, fun _ => false, fun _ => false⟩, [], false, false⟩ calls = w
  intro hw
  have hun : ∀ c, w.s.unint c = true ↔ Hidden calls c := by intro c; rw [hw.unint c]; simp
  by_cases hp : w.pushed = true
  · rw [if_pos hp]
    rcases listing_ok (o := o) hg.closed hlt hok hw with ⟨h1, h2⟩ | ⟨s, L, h1, h2⟩
    · left
      refine ⟨?_, h2⟩
      cases hga : gather g w.input w.s [] with
      | err e => rw [hga] at h1; cases h1; rfl
      | ub => rw [hga] at h1; cases h1
      | ok r =>
        rw [hga, Res.bind_ok] at h1
        rw [Res.bind_ok, ordered_eq, h1]; rfl
    · cases hga : gather g w.input w.s [] with
      | err e => rw [hga] at h1; cases h1
      | ub => rw [hga] at h1; cases h1
      | ok r =>
        rw [hga, Res.bind_ok] at h1
        rw [Res.bind_ok, ordered_eq, h1, Res.bind_ok]
        right
        -- the order
        obtain ⟨F, f1, f2, f3, f4⟩ : ∃ F, (if o.topo then topoSort g o s L else if o.time then timeSort g L else Res.ok L) = .ok F ∧ F.Perm L ∧
            (o.topo = true → Topo g s o.time L F) ∧ (o.topo = false → o.time = true → F.Pairwise fun a b => g.time a ≥ g.time b) := by
          by_cases ht : o.topo = true
          · rw [if_pos ht]
            obtain ⟨F, a, b⟩ := topoSort_ok (o := o) hg.acyclic h2.nodup (fun y _ => few (s := s) hg.few h2.nodup h2.lt y)
            exact ⟨F, a, b.perm, fun _ => b, fun h => by rw [ht] at h; cases h⟩
          · rw [if_neg ht]
            by_cases htm : o.time = true
            · rw [if_pos htm]
              obtain ⟨F, a, b, c⟩ := timeSort_ok g L
              exact ⟨F, a, b, fun h => absurd h ht, fun _ _ => c⟩
            · rw [if_neg htm]
              exact ⟨L, rfl, List.Perm.refl _, fun h => absurd h ht, fun _ h => absurd h htm⟩
        simp only
        rw [f1, Res.bind_ok, Res.bind_ok]
        simp only
        have hmem : ∀ x, x ∈ (if o.reverse then (F.filter fun c => !s.unint c).reverse else F.filter fun c => !s.unint c) ↔ x ∈ L ∧ s.unint x = false := by
          intro x
          have : x ∈ (F.filter fun c => !s.unint c) ↔ x ∈ L ∧ s.unint x = false := by
            rw [List.mem_filter, f2.mem_iff]; simp
          split
          · rw [List.mem_reverse]; exact this
          · exact this
        have hrev : (if o.reverse then (if o.reverse then (F.filter fun c => !s.unint c).reverse else F.filter fun c => !s.unint c).reverse
            else (if o.reverse then (F.filter fun c => !s.unint c).reverse else F.filter fun c => !s.unint c)) = F.filter fun c => !s.unint c := by
          by_cases hr : o.reverse = true
          · rw [if_pos hr, if_pos hr, List.reverse_reverse]
          · rw [if_neg hr, if_neg hr]
        have hparents : ∀ x ∈ L, ∀ ps p, g.parents x = some ps → p ∈ ps → p ∈ kids g s x := fun x hx ps p a b => mem_kids (h2.parsed x hx) a b
        refine ⟨_, rfl, ?_, ?_, ?_, ?_, ?_, ?_, ?_, ?_, ?_⟩
        · have : (F.filter fun c => !s.unint c).Nodup := (f2.nodup_iff.2 h2.nodup).filter _
          split
          · exact (List.reverse_perm _).nodup_iff.2 this
          · exact this
        · intro x hx; exact h2.reach x ((hmem x).1 hx).1
        · intro x hx hh
          have := ((hmem x).1 hx).2
          rw [h2.hidden x hh] at this; cases this
        · intro x hx; exact h2.cb x ((hmem x).1 hx).1
        · intro e1 e2 x hx; exact (hmem x).2 (h2.complete e1 e2 x hx)
        · intro e1 e2 hd x hx h hh hr
          obtain ⟨a, b⟩ := (hmem x).1 hx
          rw [h2.exact e1 e2 hd x a h hh hr] at b; cases b
        · intro ht
          rw [hrev]
          have := ((f3 ht).order.filter fun c => !s.unint c)
          refine List.Pairwise.imp_of_mem ?_ this
          intro a b _ hb hab ps hps hm
          have hbL := f2.mem_iff.1 (List.mem_filter.1 hb).1
          exact hab (hparents b hbL ps a hps hm)
        · intro ht htm pre c post hF y hy hall
          rw [hrev] at hF
          obtain ⟨F1, F2, e1, e2, e3⟩ := List.filter_eq_append_iff.1 hF
          obtain ⟨F3, F4, e4, e5, e6, e7⟩ := List.filter_eq_cons_iff.1 e3
          have hyF : y ∈ F.filter fun c => !s.unint c := by rw [hF]; simp [hy]
          have hy2 := (List.mem_filter.1 hyF).2
          have hyu : s.unint y = false := by simpa using hy2
          refine (f3 ht).newest htm (F1 ++ F3) c F4 (by rw [e1, e4]; simp) y ?_ ?_
          · rw [← e7] at hy; exact (List.mem_filter.1 hy).1
          · intro x hx hk
            obtain ⟨_, ps, k1, k2⟩ := kids_parent hk
            have hxu : s.unint x = false := by
              cases h : s.unint x with
              | false => rfl
              | true => rw [h2.up x hx h ps y k1 k2] at hyu; cases hyu
            have := hall x ((hmem x).2 ⟨hx, hxu⟩) ps k1 k2
            rw [← e2] at this
            exact List.mem_append_left _ (List.mem_filter.1 this).1
        · intro ht htm
          rw [hrev]
          exact (f4 ht htm).filter _
  · rw [if_neg hp]
    have hp : w.pushed = false := by simpa using hp
    have h0 := (hw.pushed hp).2
    refine .inr ⟨[], rfl, List.nodup_nil, by simp, by simp, by simp, ?_, by simp, by intro _; split <;> exact List.Pairwise.nil, ?_, by intro _ _; split <;> exact List.Pairwise.nil⟩
    · rintro _ _ x ⟨⟨p, hp1, hp2⟩, h3⟩
      exact absurd hp2 (h3 p ((hun p).1 (h0 p hp1)))
    · intro _ _ pre c post h
      split at h <;> simp at h

/-- **C29.** A walk ends: it fails only if a commit reachable from those given cannot be read. -/
theorem C29_total (hg : History g) (hlt : ∀ c ∈ calls, c.1 < g.n) (hok : ∀ x, parsed x = true → ∃ ps, g.parents x = some ps) :
    (walk g o parsed calls = .err (-1) ∧ Unreadable g calls) ∨ ∃ out, walk g o parsed calls = .ok out := by
  rcases walk_ok (o := o) hg hlt hok with h | ⟨out, h, _⟩
  · exact .inl h
  · exact .inr ⟨out, h⟩

theorem walked (hg : History g) (hlt : ∀ c ∈ calls, c.1 < g.n) (hok : ∀ x, parsed x = true → ∃ ps, g.parents x = some ps) {out : List Nat}
    (h : walk g o parsed calls = .ok out) : Walked g o calls out := by
  rcases walk_ok (o := o) hg hlt hok with ⟨h1, _⟩ | ⟨out', h1, h2⟩
  · rw [h1] at h; cases h
  · rw [h1] at h; cases h; exact h2

/-- **C29.** Whatever the options and the dates: no commit is given twice, each is reachable from a pushed one, and none is one that was hidden, by a call
or by the callback. -/
theorem C29_sound (hg : History g) (hlt : ∀ c ∈ calls, c.1 < g.n) (hok : ∀ x, parsed x = true → ∃ ps, g.parents x = some ps) {out : List Nat}
    (h : walk g o parsed calls = .ok out) :
    out.Nodup ∧ ∀ x ∈ out, (∃ p, Pushed calls p ∧ Reaches g p x) ∧ ¬Hidden calls x ∧ ∀ f, o.hideCb = some f → f x = false := by
  have hw := walked hg hlt hok h
  refine ⟨hw.nodup, fun x hx => ⟨hw.reach x hx, hw.hidden x hx, ?_⟩⟩
  intro f hf
  have := hw.cb x hx
  unfold Opts.hides at this
  rw [hf] at this; exact this

/-- **C29.** Whatever the dates: every commit that is reachable from a pushed one and from no hidden one is given. -/
theorem C29_complete (hg : History g) (hlt : ∀ c ∈ calls, c.1 < g.n) (hok : ∀ x, parsed x = true → ∃ ps, g.parents x = some ps)
    (hcb : o.hideCb = none) (hfp : o.firstParent = false) {out : List Nat} (h : walk g o parsed calls = .ok out) {x : Nat} (hx : Wanted g calls x) : x ∈ out :=
  (walked hg hlt hok h).complete hcb hfp x hx

/-- **C29.** Exactly these commits are given, if none is hidden or the dates are in order. -/
theorem C29_exact (hg : History g) (hlt : ∀ c ∈ calls, c.1 < g.n) (hok : ∀ x, parsed x = true → ∃ ps, g.parents x = some ps)
    (hcb : o.hideCb = none) (hfp : o.firstParent = false) (hd : (∀ c, ¬Hidden calls c) ∨ Datable g calls) {out : List Nat} (h : walk g o parsed calls = .ok out) (x : Nat) :
    x ∈ out ↔ Wanted g calls x := by
  have hw := walked hg hlt hok h
  refine ⟨fun hx => ⟨hw.reach x hx, fun k hk => ?_⟩, hw.complete hcb hfp x⟩
  rcases hd with hd | hd
  · exact absurd hk (hd k)
  · exact hw.exact hcb hfp hd x hx k hk

theorem idx_lt {R : Nat → Nat → Prop} {l : List Nat} (hp : l.Pairwise R) {a b : Nat} (ha : a ∈ l) (hb : b ∈ l) (hne : a ≠ b) (hr : ¬R a b) : l.idxOf b < l.idxOf a := by
  rcases Nat.lt_trichotomy (l.idxOf b) (l.idxOf a) with h | h | h
  · exact h
  · exfalso
    have h1 := List.getElem_idxOf (List.idxOf_lt_length_of_mem ha)
    have h2 := List.getElem_idxOf (List.idxOf_lt_length_of_mem hb)
    apply hne
    rw [← h1, ← h2]
    congr 1
    exact h.symm
  · exfalso
    apply hr
    have := List.pairwise_iff_getElem.1 hp (l.idxOf a) (l.idxOf b) (List.idxOf_lt_length_of_mem ha) (List.idxOf_lt_length_of_mem hb) h
    rw [List.getElem_idxOf, List.getElem_idxOf] at this
    exact this

/-- **C29.** With topological sorting no commit comes after one of its parents; with GIT_SORT_REVERSE, none before. -/
theorem C29_topological (hg : History g) (hlt : ∀ c ∈ calls, c.1 < g.n) (hok : ∀ x, parsed x = true → ∃ ps, g.parents x = some ps)
    (ht : o.topo = true) {out : List Nat} (h : walk g o parsed calls = .ok out) :
    (if o.reverse then out.reverse else out).Pairwise fun a b => ∀ ps, g.parents b = some ps → a ∉ ps :=
  (walked hg hlt hok h).topo ht

/-- **C29.** In the same way for all ancestors, if exactly the wanted commits are given. -/
theorem C29_topological_ancestors (hg : History g) (hlt : ∀ c ∈ calls, c.1 < g.n) (hok : ∀ x, parsed x = true → ∃ ps, g.parents x = some ps)
    (hcb : o.hideCb = none) (hfp : o.firstParent = false) (hd : (∀ c, ¬Hidden calls c) ∨ Datable g calls) (ht : o.topo = true) {out : List Nat} (h : walk g o parsed calls = .ok out) :
    (if o.reverse then out.reverse else out).Pairwise fun a b => ¬Proper g b a := by
  have hex := C29_exact hg hlt hok hcb hfp hd h
  have htp := C29_topological hg hlt hok ht h
  have hnd := (C29_sound hg hlt hok h).1
  revert htp
  have hmem : ∀ x, x ∈ (if o.reverse then out.reverse else out) ↔ x ∈ out := by intro x; split <;> simp
  have hnd' : (if o.reverse then out.reverse else out).Nodup := by
    split
    · exact (List.reverse_perm _).nodup_iff.2 hnd
    · exact hnd
  generalize (if o.reverse then out.reverse else out) = l at hmem hnd' ⊢
  intro htp
  -- a commit comes before its ancestors
  have key : ∀ b a, Reaches g b a → b ∈ l → a ∈ l → b = a ∨ l.idxOf b < l.idxOf a := by
    intro b a hr
    induction hr with
    | refl => intro _ _; exact .inl rfl
    | @step c p x ps h1 h2 h3 ih =>
      intro hc hx
      right
      have hcw := (hex c).1 ((hmem c).1 hc)
      have hxw := (hex x).1 ((hmem x).1 hx)
      have hpw : Wanted g calls p := by
        obtain ⟨⟨r, hr1, hr2⟩, _⟩ := hcw
        exact ⟨⟨r, hr1, Reaches.snoc hr2 h1 h2⟩, fun k hk hkr => hxw.2 k hk (hkr.trans h3)⟩
      have hp : p ∈ l := (hmem p).2 ((hex p).2 hpw)
      have hpc : p ≠ c := by rintro rfl; exact hg.acyclic p ⟨ps, p, h1, h2, .refl p⟩
      have hlt1 : l.idxOf c < l.idxOf p := idx_lt htp hp hc hpc (fun hR => hR ps h1 h2)
      rcases ih hp hx with rfl | h
      · exact hlt1
      · omega
  rw [List.pairwise_iff_getElem]
  intro i j hi hj hij hp
  have hia : l.idxOf l[i] = i := hnd'.idxOf_getElem i hi
  have hja : l.idxOf l[j] = j := hnd'.idxOf_getElem j hj
  rcases key _ _ hp.reaches (List.getElem_mem hj) (List.getElem_mem hi) with h | h
  · rw [h] at hp; exact hg.acyclic _ hp
  · rw [hia, hja] at h; omega

/-- **C29.** With topological sorting and sorting by time, each commit is the newest of those whose children have all been given before. -/
theorem C29_newest (hg : History g) (hlt : ∀ c ∈ calls, c.1 < g.n) (hok : ∀ x, parsed x = true → ∃ ps, g.parents x = some ps)
    (ht : o.topo = true) (htm : o.time = true) {out : List Nat} (h : walk g o parsed calls = .ok out) (pre : List Nat) (c : Nat) (post : List Nat)
    (hs : (if o.reverse then out.reverse else out) = pre ++ c :: post) (y : Nat) (hy : y ∈ post)
    (hall : ∀ x ∈ out, ∀ ps, g.parents x = some ps → y ∈ ps → x ∈ pre) : g.time y ≤ g.time c :=
  (walked hg hlt hok h).newest ht htm pre c post hs y hy hall

/-- **C29.** With sorting by time alone, from new to old; with GIT_SORT_REVERSE, from old to new. -/
theorem C29_time (hg : History g) (hlt : ∀ c ∈ calls, c.1 < g.n) (hok : ∀ x, parsed x = true → ∃ ps, g.parents x = some ps)
    (ht : o.topo = false) (htm : o.time = true) {out : List Nat} (h : walk g o parsed calls = .ok out) :
    (if o.reverse then out.reverse else out).Pairwise fun a b => g.time a ≥ g.time b :=
  (walked hg hlt hok h).time ht htm

/-! ### Where it fails -/

theorem countKids_many {y : Nat} : ∀ (ps : List Nat) (d : Deg) (k : Nat), d y = (if k < 65535 then k + 1 else 0) →
    countKids ps d y = if k + ps.count y < 65535 then k + ps.count y + 1 else 0
  | [], d, k, h => by rw [countKids, h]; rfl
  | p :: ps, d, k, h => by
    rw [countKids]
    by_cases hp : p = y
    · subst hp
      rw [List.count_cons_self]
      have e : k + (ps.count p + 1) = (k + 1) + ps.count p := by omega
      rw [e]
      by_cases h0 : d p ≠ 0
      · rw [if_pos h0]
        refine countKids_many ps _ (k + 1) ?_
        unfold setDeg
        rw [if_pos rfl]
        by_cases hk : k < 65535
        · rw [if_pos hk] at h
          rw [h]
          by_cases hk2 : k + 1 < 65535
          · rw [if_pos hk2]; omega
          · rw [if_neg hk2]; have : k = 65534 := by omega
            subst this; rfl
        · rw [if_neg hk] at h; exact absurd h h0
      · rw [if_neg h0]
        refine countKids_many ps d (k + 1) ?_
        by_cases hk : k < 65535
        · rw [if_pos hk] at h; omega
        · rw [if_neg hk] at h; rw [h, if_neg (by omega)]
    · rw [List.count_cons_of_ne hp]
      refine countKids_many ps _ k ?_
      by_cases h0 : d p ≠ 0
      · rw [if_pos h0]; unfold setDeg; rw [if_neg (fun e => hp e.symm)]; exact h
      · rw [if_neg h0]; exact h

theorem countAll_many {g : Repo} {s : WS} {y : Nat} : ∀ (R : List Nat) (d : Deg) (k : Nat), d y = (if k < 65535 then k + 1 else 0) →
    countAll g s R d y = if k + childEdges g s R y < 65535 then k + childEdges g s R y + 1 else 0
  | [], d, k, h => by rw [countAll, h]; simp [childEdges]
  | c :: R, d, k, h => by
    rw [countAll, childEdges_cons, ← Nat.add_assoc]
    exact countAll_many R _ (k + (kids g s c).count y) (countKids_many (kids g s c) d k h)

theorem releaseKids_zero {y : Nat} : ∀ (ps : List Nat) (d : Deg) (q : PQueue.PQ Nat) (r : Deg × PQueue.PQ Nat), q.cap = none → d y = 0 → y ∉ q.contents → releaseKids ps d q = some r →
    r.2.cap = none ∧ r.1 y = 0 ∧ y ∉ r.2.contents
  | [], d, q, r, h0, h1, h2, h => by cases h; exact ⟨h0, h1, h2⟩
  | p :: ps, d, q, r, h0, h1, h2, h => by
    rw [releaseKids] at h
    by_cases hp : d p = 0
    · rw [if_pos hp] at h; exact releaseKids_zero ps d q r h0 h1 h2 h
    · rw [if_neg hp] at h
      have hyp : y ≠ p := by rintro rfl; exact hp h1
      have hs : setDeg d p (d p - 1) y = 0 := by unfold setDeg; rw [if_neg hyp]; exact h1
      by_cases hone : d p - 1 = 1
      · rw [if_pos hone] at h
        obtain ⟨q1, i1, _, i3, i4⟩ := insert_any h0 p
        rw [i1] at h
        exact releaseKids_zero ps _ q1 r i3 hs (by rw [i4.mem_iff]; simp [hyp, h2]) h
      · rw [if_neg hone] at h
        exact releaseKids_zero ps _ q r h0 hs h2 h

theorem topoLoop_zero {g : Repo} {s : WS} {y : Nat} : ∀ (fuel : Nat) (d : Deg) (q : PQueue.PQ Nat) (out F : List Nat), q.cap = none → d y = 0 → y ∉ q.contents → y ∉ out →
    topoLoop g s fuel d q out = .ok F → y ∉ F
  | 0, _, _, _, _, _, _, _, _, h => by cases h
  | fuel + 1, d, q, out, F, h0, h1, h2, h3, h => by
    rw [topoLoop] at h
    obtain ⟨_, p2, p3⟩ := pop_any q
    rcases p3 with ⟨_, hn⟩ | ⟨c, hc, hperm⟩
    · rw [hn] at h; cases h; simpa using h3
    · rw [hc] at h
      simp only at h
      have hyc : y ≠ c := by rintro rfl; exact h2 (hperm.mem_iff.2 (by simp))
      have hyq : y ∉ (PQueue.pop q).2.contents := fun hm => h2 (hperm.mem_iff.2 (by simp [hm]))
      cases hr : releaseKids (kids g s c) d (PQueue.pop q).2 with
      | none => rw [hr] at h; cases h
      | some r =>
        rw [hr] at h
        simp only at h
        obtain ⟨k1, k2, k3⟩ := releaseKids_zero _ _ _ _ (p2.trans h0) h1 hyq hr
        exact topoLoop_zero fuel _ _ _ _ k1 (by unfold setDeg; rw [if_neg hyc]; exact k2) k3 (by simp [hyc, h3]) h

/-- A commit that is named as a parent 65535 times or more by the commits to be given is never given in a topological walk: the number wraps. -/
theorem C29_many_children (hcl : Closed g) (hlt : ∀ c ∈ calls, c.1 < g.n) (hok : ∀ x, parsed x = true → ∃ ps, g.parents x = some ps)
    (hcb : o.hideCb = none) (hfp : o.firstParent = false) (ht : o.topo = true) {y : Nat} (hy : Wanted g calls y) {C : List Nat} (hC : C.Nodup) (hCw : ∀ x ∈ C, Wanted g calls x)
    (hmany : 65535 ≤ (C.map fun x => ((g.parents x).getD []).count y).sum) {out : List Nat} (h : walk g o parsed calls = .ok out) : y ∉ out := by
  unfold walk at h
  simp only at h
  have hw := pushes_ok calls ⟨⟨parsed, fun _ => false, fun _ => false, fun _ => false⟩, [], false, false⟩
  revert hw h
  generalize pushes ⟨⟨parsed, fun _ => false, fun _ => false, fun _ => false⟩, [], false, false⟩ calls = w
  intro h hw
  by_cases hp : w.pushed = true
  · rw [if_pos hp] at h
    cases hga : gather g w.input w.s [] with
    | err e => rw [hga] at h; cases h
    | ub => rw [hga] at h; cases h
    | ok r =>
      rw [hga, Res.bind_ok, ordered_eq] at h
      rcases listing_ok (o := o) hcl hlt hok hw with ⟨h1, _⟩ | ⟨s, L, h1, h2⟩
      · rw [hga, Res.bind_ok] at h1
        rw [h1] at h; cases h
      · rw [hga, Res.bind_ok] at h1
        rw [h1, Res.bind_ok] at h
        simp only at h
        rw [if_pos ht] at h
        cases hts : topoSort g o s L with
        | err e => rw [hts] at h; cases h
        | ub => rw [hts] at h; cases h
        | ok F =>
          rw [hts, Res.bind_ok, Res.bind_ok] at h
          simp only at h
          have hyL := (h2.complete hcb hfp y hy).1
          have hce : 65535 ≤ childEdges g s L y := by
            have e1 := sum_le_of_subset (fun x => ((g.parents x).getD []).count y) hC (M := L) (fun x hx => (h2.complete hcb hfp x (hCw x hx)).1)
            have e2 : childEdges g s L y = (L.map fun x => ((g.parents x).getD []).count y).sum := by
              unfold childEdges
              congr 1
              refine List.map_congr_left fun x hx => ?_
              unfold kids
              rw [if_pos (h2.parsed x hx)]
            omega
          have hyF : y ∉ F := by
            unfold topoSort at hts
            simp only at hts
            have hd : countAll g s L (startDeg L) y = 0 := by
              rw [countAll_many L (startDeg L) 0 (by unfold startDeg; rw [if_pos hyL]; rfl), if_neg (by omega)]
            obtain ⟨q, q1, _, q3, _, q5⟩ := pushTips_ok (g := g) (d := countAll g s L (startDeg L)) L (PQueue.init false 8 (if o.time then some (Graph.timeCmp g) else none)) rfl
              (by intro _; exact PQueue.heap_nil)
            rw [q1] at hts
            simp only at hts
            have hyq : y ∉ q.contents := by
              rw [q5.mem_iff]
              have : (PQueue.init false 8 (if o.time then some (Graph.timeCmp g) else none) : PQueue.PQ Nat).contents = [] := rfl
              rw [this, List.append_nil, List.mem_filter, hd]
              simp
            refine topoLoop_zero _ _ _ _ _ ?_ hd ?_ (by simp) hts
            · split
              · exact q3
              · exact q3
            · split
              · exact hyq
              · intro hm; exact hyq (List.mem_reverse.1 hm)
          have hout : out = if o.reverse then (F.filter fun c => !s.unint c).reverse else F.filter fun c => !s.unint c := (Res.ok.inj h).symm
          intro hm
          apply hyF
          rw [hout] at hm
          split at hm
          · exact (List.mem_filter.1 (List.mem_reverse.1 hm)).1
          · exact (List.mem_filter.1 hm).1
  · rw [if_neg hp] at h
    cases h; simp

/-! ### Concrete cases -/
open Graph (mkRepo downward downward_parents downward_closed downward_acyclic downward_reaches)

def plain : Opts := ⟨false, false, false, false, none⟩

/-- few commits: few children -/
theorem few_small {l : List (List Nat × Int)} (h : ((l.map fun c => c.1.length).sum < 65535)) : FewChildren (mkRepo l) := by
  intro y
  refine Nat.lt_of_le_of_lt ?_ h
  have e : (List.range (mkRepo l).n).map (fun x => (((mkRepo l).parents x).getD []).count y) = l.map fun c => c.1.count y := by
    apply List.ext_getElem
    · simp [mkRepo]
    · intro i h1 h2
      simp at h2
      simp [mkRepo, List.getElem?_eq_getElem h2]
  rw [e]
  clear e h
  induction l with
  | nil => simp
  | cons a l ih =>
    simp only [List.map_cons, List.sum_cons]
    have := List.count_le_length (a := y) (l := a.1)
    omega

theorem mk_history {l : List (List Nat × Int)} (h1 : downward l = true) (h2 : (l.map fun c => c.1.length).sum < 65535) : History (mkRepo l) :=
  ⟨downward_closed h1, downward_acyclic h1, few_small h2⟩

/-- a merge 0 of 1 and 2, which share 3; 4 is the root -/
def small : List (List Nat × Int) := [([1, 2], 50), ([3], 40), ([3], 30), ([4], 20), ([], 10)]

example : History (mkRepo small) := mk_history (by decide +kernel) (by decide +kernel)

theorem mk_older {l : List (List Nat × Int)} (h1 : downward l = true)
    (h2 : ∀ c ∈ List.range l.length, ∀ p ∈ ((mkRepo l).parents c).getD [], (mkRepo l).time p < (mkRepo l).time c) : Older (mkRepo l) := by
  intro c ps p hp hm
  have := downward_parents h1 hp hm
  exact h2 c (List.mem_range.2 (by omega)) p (by rw [hp]; exact hm)

theorem small_older : Older (mkRepo small) := mk_older (by decide +kernel) (by decide +kernel)

/-- one pushed, one hidden -/
example : Datable (mkRepo small) [(0, false), (3, true)] := .inl ⟨small_older, by simp [Pushed]⟩
example : walk (mkRepo small) plain (fun _ => false) [(0, false), (3, true)] = .ok [0, 1, 2] := by decide +kernel
example : walk (mkRepo small) { plain with topo := true, reverse := true } (fun _ => false) [(0, false)] = .ok [4, 3, 1, 2, 0] := by decide +kernel
example : walk (mkRepo small) { plain with firstParent := true } (fun _ => false) [(0, false)] = .ok [0, 1, 3, 4] := by decide +kernel
example : walk (mkRepo small) { plain with hideCb := some (fun c => c == 3) } (fun _ => false) [(0, false)] = .ok [0, 1, 2] := by decide +kernel
/-- a hidden commit that is pushed later stays hidden -/
example : walk (mkRepo small) plain (fun _ => false) [(1, true), (1, false)] = .ok [] := by decide +kernel
/-- a commit that cannot be read -/
example : walk ⟨2, fun c => if c = 0 then some [1] else none, fun _ => 0, fun _ => 0⟩ plain (fun _ => false) [(0, false)] = .err (-1) := by decide +kernel

/-- 0 is hidden, and leads to 7 by a chain of six; 8 has no parents -/
def unordered : List (List Nat × Int) := [([1], 200), ([2], 90), ([3], 89), ([4], 88), ([5], 87), ([6], 86), ([7], 85), ([], 1), ([], 100)]

/-- With dates that are all in order, a commit that is reachable from a hidden one is given all the same, as two commits were pushed, the newer one first. -/
theorem C29_hide_unordered : History (mkRepo unordered) ∧ Older (mkRepo unordered) ∧ Reaches (mkRepo unordered) 0 7 ∧
    walk (mkRepo unordered) plain (fun _ => false) [(0, true), (8, false), (7, false)] = .ok [7, 8] ∧
    walk (mkRepo unordered) plain (fun _ => false) [(0, true), (7, false), (8, false)] = .ok [8] := by
  refine ⟨mk_history (by decide +kernel) (by decide +kernel), mk_older (by decide +kernel) (by decide +kernel), ?_, by decide +kernel, by decide +kernel⟩
  · refine .step (p := 1) (ps := [1]) rfl (by simp) (.step (p := 2) (ps := [2]) rfl (by simp) (.step (p := 3) (ps := [3]) rfl (by simp) (.step (p := 4) (ps := [4]) rfl (by simp)
      (.step (p := 5) (ps := [5]) rfl (by simp) (.step (p := 6) (ps := [6]) rfl (by simp) (.step (p := 7) (ps := [7]) rfl (by simp) (.refl 7)))))))

/-- 0 is pushed, 1 is hidden; both lead to 8, whose date is too late -/
def skewed : List (List Nat × Int) := [([8], 100), ([2], 50), ([3], 49), ([4], 48), ([5], 47), ([6], 46), ([7], 45), ([8], 44), ([], 60)]

/-- With a date that is wrong, a commit that is reachable from a hidden one may be given, even if only one is pushed. -/
theorem C29_skew : History (mkRepo skewed) ∧ Reaches (mkRepo skewed) 1 8 ∧
    walk (mkRepo skewed) plain (fun _ => false) [(1, true), (0, false)] = .ok [0, 8] := by
  refine ⟨mk_history (by decide +kernel) (by decide +kernel), ?_, by decide +kernel⟩
  refine .step (p := 2) (ps := [2]) rfl (by simp) (.step (p := 3) (ps := [3]) rfl (by simp) (.step (p := 4) (ps := [4]) rfl (by simp) (.step (p := 5) (ps := [5]) rfl (by simp)
      (.step (p := 6) (ps := [6]) rfl (by simp) (.step (p := 7) (ps := [7]) rfl (by simp) (.step (p := 8) (ps := [8]) rfl (by simp) (.refl 8)))))))

/-- a commit with 65535 parents, which are all the same: the other one is not given -/
def manyKids (k : Nat) : Repo := ⟨2, fun c => if c = 0 then some (List.replicate k 1) else some [], fun _ => 0, fun _ => 0⟩

example (k : Nat) (hk : 65535 ≤ k) (out : List Nat) (h : walk (manyKids k) { plain with topo := true } (fun _ => false) [(0, false)] = .ok out) : 1 ∉ out := by
  have h1 : ∀ x, Reaches (manyKids k) 0 x → Wanted (manyKids k) [(0, false)] x := fun x hx => ⟨⟨0, by simp [Pushed], hx⟩, by simp [Hidden]⟩
  refine C29_many_children (C := [0]) ?_ (by simp [manyKids]) (by simp) rfl rfl rfl (h1 1 ?_) (by simp) ?_ ?_ h
  · intro c ps hp p hm
    simp only [manyKids] at hp ⊢
    split at hp
    · cases hp
      rw [List.mem_replicate] at hm
      omega
    · cases hp; cases hm
  · exact .step (p := 1) (ps := List.replicate k 1) rfl (List.mem_replicate.2 ⟨by omega, rfl⟩) (.refl 1)
  · intro x hx
    rw [List.mem_singleton] at hx
    subst hx
    exact h1 0 (.refl 0)
  · simp only [List.map_cons, List.map_nil, List.sum_cons, List.sum_nil, manyKids, if_true, Option.getD_some]
    rw [List.count_replicate_self]; omega

end Verif.Revwalk
