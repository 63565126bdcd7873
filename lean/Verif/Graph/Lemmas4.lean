import Verif.Graph.Lemmas3
/-! # Ahead and behind -/
namespace Verif.Graph
open PQueue (PQ Heap)
open PQueue.Spec (Preorder)

/-- Every commit comes after its parents in the order of the queue: by the generation numbers if all commits have one (as in a commit graph), by the dates
if none has. -/
def Ordered (g : Repo) : Prop :=
  ((∀ c, g.gen c = 0) ∧ ∀ c ps p, g.parents c = some ps → p ∈ ps → g.time p < g.time c) ∨
  ((∀ c, g.gen c ≠ 0) ∧ ∀ c ps p, g.parents c = some ps → p ∈ ps → g.gen p < g.gen c)

theorem ordered_key {g : Repo} (h : Ordered g) : ∃ key : Nat → Int, (∀ a b, generationCmp g a b ≤ 0 ↔ key b ≤ key a) ∧
    ∀ c ps p, g.parents c = some ps → p ∈ ps → key p < key c := by
  rcases h with ⟨h0, hp⟩ | ⟨h0, hp⟩
  · refine ⟨g.time, ?_, hp⟩
    intro a b
    unfold generationCmp timeCmp
    rw [if_pos (.inl (h0 a))]
    split
    · omega
    · split <;> omega
  · refine ⟨fun c => (g.gen c : Int), ?_, fun c ps p h1 h2 => by have := hp c ps p h1 h2; simp only; omega⟩
    intro a b
    unfold generationCmp
    rw [if_neg (by simp [h0 a, h0 b])]
    show _ ↔ (g.gen b : Int) ≤ (g.gen a : Int)
    split
    · omega
    · split <;> omega

theorem key_preorder {cmp : Nat → Nat → Int} {key : Nat → Int} (h : ∀ a b, cmp a b ≤ 0 ↔ key b ≤ key a) : Preorder cmp where
  total a b := by rw [h, h]; omega
  trans a b c := by rw [h, h, h]; omega

theorem key_reaches {g : Repo} {key : Nat → Int} (h : ∀ c ps p, g.parents c = some ps → p ∈ ps → key p < key c) {a b : Nat} (hr : Reaches g a b) : key b ≤ key a := by
  induction hr with
  | refl => omega
  | step hp hm _ ih => have := h _ _ _ hp hm; omega

theorem key_proper {g : Repo} {key : Nat → Int} (h : ∀ c ps p, g.parents c = some ps → p ∈ ps → key p < key c) {a b : Nat} (hr : Proper g a b) : key b < key a := by
  obtain ⟨ps, p, hp, hm, hr⟩ := hr
  have := h _ _ _ hp hm
  have := key_reaches h hr
  omega

/-- marked commits that were taken off the queue are not before those on it -/
def Popped (key : Nat → Int) (cmp : Nat → Nat → Int) (s : State) : Prop :=
  Heap cmp s.q.contents ∧ ∀ x, (s.fl x).any = true → x ∉ s.q.contents → ∀ c ∈ s.q.contents, key c ≤ key x

/-- what the painting of `mark_parents` gives -/
structure Painted (g : Repo) (one two : Nat) (fl : Marks) : Prop where
  start1 : (fl one).p1 = true
  start2 : (fl two).p2 = true
  known : ∀ c, (fl c).any = true → c < g.n
  p1 : ∀ c, (fl c).p1 = true → Reaches g one c
  p2 : ∀ c, (fl c).p2 = true → Reaches g two c
  result : ∀ c, (fl c).result = true → (fl c).p1 = true ∧ (fl c).p2 = true
  settled : ∀ c, ((fl c).p1 && (fl c).p2) = false → (fl c).any = true → ∀ ps, g.parents c = some ps → ∀ p ∈ ps,
    ((fl c).p1 = true → (fl p).p1 = true) ∧ ((fl c).p2 = true → (fl p).p2 = true)
  exact : Ordered g → ∀ c, (fl c).any = true → Reaches g one c → Reaches g two c → (fl c).p1 = true ∧ (fl c).p2 = true

theorem markParents_ok {g : Repo} (hcl : Closed g) {one two : Nat} (h1 : one < g.n) (h2 : two < g.n) (hne : one ≠ two) :
    (markParents g one two = .err (-1) ∧ ∃ x, (Reaches g one x ∨ Reaches g two x) ∧ g.parents x = none) ∨
    ∃ fl, markParents g one two = .ok fl ∧ Painted g one two fl := by
  unfold markParents
  rw [if_neg hne]
  cases hp : g.parents one with
  | none => exact .inl ⟨rfl, one, .inl (.refl one), hp⟩
  | some ps =>
    simp only
    obtain ⟨q0, i1, _⟩ := insert_both (q := PQueue.init false 2 (some (generationCmp g))) (cmp := generationCmp g) rfl rfl one
    rw [i1]
    simp only
    rcases start_inv h1 (twos := [two]) (by simpa using h2) ⟨ps, hp⟩ i1 with ⟨k1, t, ht, k2⟩ | ⟨r, k1, k2, k3, k4, k5⟩
    · left
      rw [k1]
      rw [List.mem_singleton] at ht
      subst ht
      exact ⟨rfl, t, .inr (.refl t), k2⟩
    · rw [k1, Res.bind_ok]
      rcases loop_inv hcl (I := interestingRoots) (P := fun s => ∀ key : Nat → Int, (∀ a b, generationCmp g a b ≤ 0 ↔ key b ≤ key a) →
          (∀ c ps p, g.parents c = some ps → p ∈ ps → key p < key c) → Popped key (generationCmp g) s) (by
          intro s c q1 hi hP _ _ hperm hpop s' added _ hperm' hadd hheap hfl key hk hkp
          have hpre := key_preorder hk
          obtain ⟨p1, p2⟩ := hP key hk hkp
          obtain ⟨q1h, q1m⟩ := hpop hpre p1
          refine ⟨hheap hpre q1h, ?_⟩
          intro x hx hxq y hy
          have hmem : ∀ z, z ∈ s.q.contents ↔ z = c ∨ z ∈ q1.contents := by intro z; rw [hperm.mem_iff, List.mem_cons]
          have hmem' : ∀ z, z ∈ s'.q.contents ↔ z ∈ added ∨ z ∈ q1.contents := by intro z; rw [hperm'.mem_iff, List.mem_append]
          have hyc : key y ≤ key c := by
            rcases (hmem' y).1 hy with h | h
            · obtain ⟨ps, e1, e2⟩ := hadd y h
              have := hkp c ps y e1 e2; omega
            · exact (hk c y).1 (q1m y h)
          by_cases hxc : x = c
          · rw [hxc]; exact hyc
          · rw [hfl x hxq, (marked_flags s c x).2.2.2.2.1 hxc] at hx
            have := p2 x hx (by
              rw [hmem]; rintro (h | h)
              · exact hxc h
              · exact hxq ((hmem' x).2 (.inr h))) c ((hmem c).2 (.inl rfl))
            omega) _ _ k2 (fun key hk _ => ⟨k4 (key_preorder hk), fun x hx hn => absurd (k5 x hx) hn⟩) k3 with
        ⟨l1, c, p, ps', l2, l3, l4, l5⟩ | ⟨s', l1, l2, l3, l4⟩
      · left
        have : paintFuel g 1 = paintFuel g [two].length := rfl
        rw [this, l1]
        refine ⟨rfl, p, ?_, l5⟩
        rcases l2 with l2 | ⟨t, ht, l2⟩
        · exact .inl (l2.trans (.step l3 l4 (.refl p)))
        · rw [List.mem_singleton] at ht
          subst ht
          exact .inr (l2.trans (.step l3 l4 (.refl p)))
      · right
        have : paintFuel g 1 = paintFuel g [two].length := rfl
        rw [this, l1, Res.bind_ok]
        have hst : AllStale s' := by
          refine allStale_of ?_
          rcases l4 with l4 | l4
          · unfold interestingRoots at l4
            rw [Bool.or_eq_false_iff] at l4
            exact .inl l4.1
          · exact .inr l4
        have hboth : ∀ c ∈ s'.q.contents, (s'.fl c).p1 = true ∧ (s'.fl c).p2 = true := fun c hc =>
          ⟨(l2.stale c (hst c hc)).1, (l2.stale c (hst c hc)).2.1⟩
        refine ⟨s'.fl, rfl, ?_⟩
        constructor
        · exact l2.start1
        · exact l2.start2 two (by simp)
        · exact fun c hc => (l2.known c hc).1
        · exact l2.p1
        · intro c hc
          obtain ⟨t, ht, hr⟩ := l2.p2 c hc
          rw [List.mem_singleton] at ht
          exact ht ▸ hr
        · exact fun c hc => l2.both c ((l2.result c).1 hc)
        · intro c hb ha ps'' hps p hpm
          have hcq : c ∉ s'.q.contents := by
            intro hc
            obtain ⟨b1, b2⟩ := hboth c hc
            rw [b1, b2] at hb; cases hb
          have := has_iff.1 (l2.settled c ha hcq ps'' hps p hpm)
          exact ⟨this.1, this.2.1⟩
        · intro hord c ha r1 r2
          obtain ⟨key, hk, hkp⟩ := ordered_key hord
          obtain ⟨_, hpop⟩ := l3 key hk hkp
          by_cases hcq : c ∈ s'.q.contents
          · exact hboth c hcq
          · constructor
            · rcases frontier1 l2 r1 l2.start1 with h | ⟨d, hd, _, hr⟩
              · exact h
              · have := hpop c ha hcq d hd
                by_cases e : d = c
                · exact absurd (e ▸ hd) hcq
                · have := key_proper hkp (hr.proper_of_ne e); omega
            · rcases frontier2 l2 r2 (l2.start2 two (by simp)) with h | ⟨d, hd, _, hr⟩
              · exact h
              · have := hpop c ha hcq d hd
                by_cases e : d = c
                · exact absurd (e ▸ hd) hcq
                · have := key_proper hkp (hr.proper_of_ne e); omega

/-! ### counting -/

theorem pushAll_ok {cmp : Nat → Nat → Int} : ∀ (ps : List Nat) (q : PQ Nat), q.cmp = some cmp → q.cap = none →
    ∃ q', pushAll q ps = some q' ∧ q'.cmp = some cmp ∧ q'.cap = none ∧ q'.contents.Perm (ps.reverse ++ q.contents)
  | [], q, hq, hc => ⟨q, rfl, hq, hc, List.Perm.refl _⟩
  | p :: ps, q, hq, hc => by
    rw [pushAll]
    obtain ⟨q1, i1, i2, i3, i4, _⟩ := insert_both hq hc p
    rw [i1]
    simp only
    obtain ⟨q', h1, h2, h3, h4⟩ := pushAll_ok ps q1 i2 i3
    refine ⟨q', h1, h2, h3, h4.trans ((i4.append_left _).trans ?_)⟩
    simp only [List.reverse_cons, List.append_assoc, List.singleton_append]
    exact List.Perm.refl _

/-- not counted, and not gone past -/
def blocked (f : Flags) : Bool := f.result || (f.p1 && f.p2)

/-- the parents of the commits that were not visited -/
def restEdges (g : Repo) (V : List Nat) : Nat := ((List.range g.n).map fun c => if (decide (c ∉ V)) then ((g.parents c).getD []).length else 0).sum

theorem restEdges_cons {g : Repo} {V : List Nat} {c : Nat} (hc : c < g.n) (hV : c ∉ V) : restEdges g (c :: V) + ((g.parents c).getD []).length = restEdges g V := by
  have := sum_upd' (fun x => ((g.parents x).getD []).length) (fun x => decide (x ∉ V)) c (by simp [hV]) g.n hc
  unfold restEdges
  rw [← this]
  congr 3
  funext x
  by_cases hx : x = c
  · subst hx; simp
  · simp [hx]

/-- what holds while counting -/
structure CInv (g : Repo) (one two : Nat) (fl : Marks) (V : List Nat) (q : PQ Nat) (cur : Marks) : Prop where
  cmp : q.cmp = some (timeCmp g)
  cap : q.cap = none
  cur : ∀ c, cur c = if c ∈ V then { (fl c) with result := true } else fl c
  nodup : V.Nodup
  free : ∀ c ∈ V, blocked (fl c) = false
  closed : ∀ c ∈ V, ∀ ps, g.parents c = some ps → ∀ p ∈ ps, p ∈ q.contents ∨ p ∈ V ∨ blocked (fl p) = true
  start1 : one ∈ q.contents ∨ one ∈ V ∨ blocked (fl one) = true
  start2 : two ∈ q.contents ∨ two ∈ V ∨ blocked (fl two) = true
  painted : ∀ c, c ∈ q.contents ∨ c ∈ V → (fl c).p1 = true ∨ (fl c).p2 = true

/-- the end of counting -/
structure Counted (g : Repo) (one two : Nat) (fl : Marks) (V : List Nat) : Prop where
  nodup : V.Nodup
  free : ∀ c ∈ V, blocked (fl c) = false
  closed : ∀ c ∈ V, ∀ ps, g.parents c = some ps → ∀ p ∈ ps, p ∈ V ∨ blocked (fl p) = true
  start1 : one ∈ V ∨ blocked (fl one) = true
  start2 : two ∈ V ∨ blocked (fl two) = true

/-- how many of them were reached from the first only, and from the second only -/
def tally (fl : Marks) (V : List Nat) : Nat × Nat := ((V.filter fun c => (fl c).p1).length, (V.filter fun c => !(fl c).p1 && (fl c).p2).length)

theorem countLoop_ok {g : Repo} (hcl : Closed g) {one two : Nat} {fl : Marks} (hk : ∀ c, (fl c).any = true → c < g.n)
    (hset : ∀ c, blocked (fl c) = false → (fl c).any = true → ∀ ps, g.parents c = some ps → ∀ p ∈ ps, ((fl c).p1 = true → (fl p).p1 = true) ∧ ((fl c).p2 = true → (fl p).p2 = true)) :
    ∀ (fuel : Nat) (q : PQ Nat) (cur : Marks) (V : List Nat), CInv g one two fl V q cur → q.contents.length + restEdges g V < fuel →
    ∃ V', countLoop g fuel q cur (tally fl V) = .ok (tally fl V') ∧ Counted g one two fl V'
  | 0, _, _, _, _, h => by omega
  | fuel + 1, q, cur, V, hi, hf => by
    rw [countLoop]
    obtain ⟨k1, k2, k3⟩ := pop_both hi.cmp
    rcases k3 with ⟨k3, k4⟩ | ⟨c, k3, k4, _⟩
    · rw [k4]
      refine ⟨V, rfl, hi.nodup, hi.free, ?_, ?_, ?_⟩
      · intro c hc ps hps p hp
        rcases hi.closed c hc ps hps p hp with h | h
        · rw [k3] at h; cases h
        · exact h
      · rcases hi.start1 with h | h
        · rw [k3] at h; cases h
        · exact h
      · rcases hi.start2 with h | h
        · rw [k3] at h; cases h
        · exact h
    · rw [k3]
      simp only
      have hmem : ∀ z, z ∈ q.contents ↔ z = c ∨ z ∈ (PQueue.pop q).2.contents := by intro z; rw [k4.mem_iff, List.mem_cons]
      have hlen := k4.length_eq
      rw [List.length_cons] at hlen
      by_cases hb : ((cur c).result || ((cur c).p1 && (cur c).p2)) = true
      · rw [if_pos hb]
        have hcV : c ∈ V ∨ blocked (fl c) = true := by
          by_cases hcV : c ∈ V
          · exact .inl hcV
          · rw [hi.cur c, if_neg hcV] at hb; exact .inr hb
        have mv : ∀ x, (x ∈ q.contents ∨ x ∈ V ∨ blocked (fl x) = true) → x ∈ (PQueue.pop q).2.contents ∨ x ∈ V ∨ blocked (fl x) = true := by
          rintro x (h | h)
          · rcases (hmem x).1 h with rfl | h
            · exact .inr hcV
            · exact .inl h
          · exact .inr h
        refine countLoop_ok hcl hk hset fuel _ cur V ⟨k1, by rw [k2]; exact hi.cap, hi.cur, hi.nodup, hi.free, ?_, mv _ hi.start1, mv _ hi.start2, ?_⟩ (by omega)
        · intro x hx ps hps p hp
          exact mv p (hi.closed x hx ps hps p hp)
        · intro x hx
          apply hi.painted
          rcases hx with hx | hx
          · exact .inl ((hmem x).2 (.inr hx))
          · exact .inr hx
      · rw [if_neg hb]
        have hcV : c ∉ V := by
          intro h
          rw [hi.cur c, if_pos h] at hb
          simp at hb
        have hcur : cur c = fl c := by rw [hi.cur c, if_neg hcV]
        have hfree : blocked (fl c) = false := by
          rw [hcur] at hb
          unfold blocked
          simpa using hb
        have hpaint := hi.painted c (.inl ((hmem c).2 (.inl rfl)))
        have hany : (fl c).any = true := any_iff.2 (by rcases hpaint with h | h <;> simp [h])
        obtain ⟨q', j1, j2, j3, j4⟩ := pushAll_ok ((g.parents c).getD []) (PQueue.pop q).2 k1 (by rw [k2]; exact hi.cap)
        rw [j1]
        simp only
        have hmem' : ∀ z, z ∈ q'.contents ↔ z ∈ (g.parents c).getD [] ∨ z ∈ (PQueue.pop q).2.contents := by
          intro z; rw [j4.mem_iff, List.mem_append, List.mem_reverse]
        have hlen' := j4.length_eq
        rw [List.length_append, List.length_reverse] at hlen'
        have hrest := restEdges_cons (g := g) (hk c hany) hcV
        have htally : (if (cur c).p1 = true then ((tally fl V).1 + 1, (tally fl V).2) else if (cur c).p2 = true then ((tally fl V).1, (tally fl V).2 + 1) else tally fl V) = tally fl (c :: V) := by
          rw [hcur]
          unfold tally
          by_cases e1 : (fl c).p1 = true
          · simp [e1]
          · by_cases e2 : (fl c).p2 = true
            · simp [e1, e2]
            · rcases hpaint with h | h
              · exact absurd h e1
              · exact absurd h e2
        rw [htally]
        have mv : ∀ x, (x ∈ q.contents ∨ x ∈ V ∨ blocked (fl x) = true) → x ∈ q'.contents ∨ x ∈ c :: V ∨ blocked (fl x) = true := by
          rintro x (h | h | h)
          · rcases (hmem x).1 h with rfl | h
            · exact .inr (.inl (by simp))
            · exact .inl ((hmem' x).2 (.inr h))
          · exact .inr (.inl (by simp [h]))
          · exact .inr (.inr h)
        refine countLoop_ok hcl hk hset fuel q' _ (c :: V) ⟨j2, j3, ?_, List.nodup_cons.2 ⟨hcV, hi.nodup⟩, ?_, ?_, mv _ hi.start1, mv _ hi.start2, ?_⟩ (by omega)
        · intro x
          unfold upd
          by_cases hx : x = c
          · subst hx
            rw [if_pos rfl, if_pos (by simp), hcur]
          · rw [if_neg hx, hi.cur x]
            by_cases hxV : x ∈ V
            · rw [if_pos hxV, if_pos (by simp [hxV])]
            · rw [if_neg hxV, if_neg (by simp [hxV, hx])]
        · intro x hx
          rcases List.mem_cons.1 hx with rfl | hx
          · exact hfree
          · exact hi.free x hx
        · intro x hx ps hps p hp
          rcases List.mem_cons.1 hx with rfl | hx
          · left; rw [hmem', hps]; exact .inl hp
          · exact mv p (hi.closed x hx ps hps p hp)
        · intro x hx
          have old : x ∈ q.contents ∨ x ∈ V → (fl x).p1 = true ∨ (fl x).p2 = true := hi.painted x
          rcases hx with hx | hx
          · rcases (hmem' x).1 hx with h | h
            · cases hps : g.parents c with
              | none => rw [hps] at h; cases h
              | some ps =>
                rw [hps] at h
                obtain ⟨e1, e2⟩ := hset c hfree hany ps hps x h
                rcases hpaint with h | h
                · exact .inl (e1 h)
                · exact .inr (e2 h)
            · exact old (.inl ((hmem x).2 (.inr h)))
          · rcases List.mem_cons.1 hx with rfl | hx
            · exact hpaint
            · exact old (.inr hx)

theorem restEdges_le (g : Repo) : restEdges g [] = edges g := by
  unfold restEdges edges
  simp

theorem countAB_ok {g : Repo} (hcl : Closed g) {one two : Nat} {fl : Marks} (hp : Painted g one two fl) :
    ∃ V, countAB g fl one two = .ok (tally fl V) ∧ Counted g one two fl V := by
  unfold countAB
  obtain ⟨q, h1, h2, h3, h4⟩ := pushAll_ok [one, two] (PQueue.init false 2 (some (timeCmp g))) rfl rfl
  rw [h1]
  simp only
  have hq : ∀ x, x ∈ q.contents ↔ x = one ∨ x = two := by
    intro x; rw [h4.mem_iff]; simp only [List.reverse_cons, List.reverse_nil, List.nil_append, PQueue.init, List.append_nil, List.cons_append, List.mem_cons, List.not_mem_nil, or_false]; exact Or.comm
  have hl := h4.length_eq
  have ht : tally fl [] = (0, 0) := rfl
  rw [← ht]
  refine countLoop_ok hcl hp.known ?_ _ q fl [] ⟨h2, h3, by simp, List.nodup_nil, by simp, by simp, .inl ((hq one).2 (.inl rfl)), .inl ((hq two).2 (.inr rfl)), ?_⟩ ?_
  · intro c hb
    refine hp.settled c ?_
    unfold blocked at hb
    rw [Bool.or_eq_false_iff] at hb
    exact hb.2
  · rintro c (h | h)
    · rcases (hq c).1 h with rfl | rfl
      · exact .inl hp.start1
      · exact .inr hp.start2
    · cases h
  · rw [restEdges_le]
    simp [PQueue.init] at hl
    omega

theorem counted_all {g : Repo} {one two : Nat} {fl : Marks} {V : List Nat} (hV : Counted g one two fl V) {B : Nat → Prop}
    (hB : ∀ c, blocked (fl c) = true → B c) {a x : Nat} (hr : Reaches g a x) (ha : a ∈ V ∨ blocked (fl a) = true) (hn : ∀ c, Reaches g a c → Reaches g c x → ¬B c) : x ∈ V := by
  induction hr with
  | refl c =>
    rcases ha with h | h
    · exact h
    · exact absurd (hB c h) (hn c (.refl c) (.refl c))
  | @step c p x ps hps hm hr ih =>
    have hc : c ∈ V := by
      rcases ha with h | h
      · exact h
      · exact absurd (hB c h) (hn c (.refl c) (.step hps hm hr))
    exact ih (hV.closed c hc ps hps p hm) (fun y h1 h2 => hn y (.step hps hm h1) h2)

end Verif.Graph
