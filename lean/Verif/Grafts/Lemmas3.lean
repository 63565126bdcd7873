import Verif.Grafts.Lemmas2
/-! # Grafts of a repository -/
namespace Verif.Grafts
open HashMap.Spec (lookup step Op)
open Spec (IsId Line File IsText parentsOf Graft lastRead Settled Tells UpToDate Says Event EventOk)

variable {sha : Bytes → Bytes} {size : Nat}

theorem looked_refresh {g : Grafts} {fs : List (Option Bytes)} (h0 : 0 < size) (h : Looked sha size (some g) fs) (f : Option Bytes) :
    ∃ g' c, refresh sha size g f = .ok (g', c) ∧ Looked sha size (some g') (fs ++ [f]) := by
  obtain ⟨g1, c1, e, h1⟩ := h
  cases e
  obtain ⟨g2, c2, h2, _⟩ := lookAll_total (sha := sha) h0 (fs ++ [f])
  exact ⟨g2, c2, refresh_of_look h1 h2, g2, c2, rfl, h2⟩

theorem looked_new (f : Option Bytes) {g : Grafts} {c : Int} (h : refresh sha size new f = .ok (g, c)) : Looked sha size (some g) [f] := by
  refine ⟨g, c, rfl, ?_⟩
  unfold lookAll
  rw [h]; rfl

/-- in force after one more look -/
theorem look_ok (h0 : 0 < size) {g : Grafts} {fs : List (Option Bytes)} (h : Looked sha size (some g) fs) (f : Option Bytes) (ht : Tells sha (fs ++ [f]))
    (hu : UpToDate (fs ++ [f])) (gs : List Graft) (hf : Says size f gs 0) :
    ∃ g', refresh sha size g f = .ok (g', 0) ∧ Looked sha size (some g') (fs ++ [f]) ∧ Keys g'.map ∧ ∀ id, lookup g'.map id = parentsOf gs id := by
  obtain ⟨g1, c1, e, h1⟩ := h
  cases e
  obtain ⟨g', h2, h3, h4⟩ := upToDate_spec h0 fs f ht hu gs hf
  exact ⟨g', refresh_of_look h1 h2, ⟨g', 0, rfl, h2⟩, h3, h4⟩

theorem loadGrafts_ok (h0 : 0 < size) (r : Repo) {gfs sfs : List (Option Bytes)} (hg : Looked sha size r.grafts gfs) (hs : Looked sha size r.shallow sfs)
    (tg : Tells sha (gfs ++ [r.graftsFile])) (ts : Tells sha (sfs ++ [r.shallowFile])) (ug : UpToDate (gfs ++ [r.graftsFile]))
    (us : UpToDate (sfs ++ [r.shallowFile])) (gs ss : List Graft) (fg : Says size r.graftsFile gs 0) (fs : Says size r.shallowFile ss 0) :
    ∃ g s, loadGrafts sha size r = .ok (⟨r.graftsFile, r.shallowFile, some g, some s⟩, 0) ∧
      Looked sha size (some s) (sfs ++ [r.shallowFile] ++ [r.shallowFile]) ∧
      (∀ id, lookup g.map id = parentsOf gs id) ∧ (∀ id, lookup s.map id = parentsOf ss id) := by
  obtain ⟨gf, sf, go, so⟩ := r
  dsimp only at *
  obtain ⟨g0, cg, eg, lg⟩ := hg
  obtain ⟨s0, cs, es, ls⟩ := hs
  subst eg es
  obtain ⟨g1, a1, a2, _, _⟩ := look_ok h0 ⟨g0, cg, rfl, lg⟩ gf tg ug gs fg
  obtain ⟨g2, b1, b2, _, b4⟩ := look_ok h0 a2 gf (tells_again tg) (upToDate_again ug) gs fg
  obtain ⟨s1, c1, c2, _, _⟩ := look_ok h0 ⟨s0, cs, rfl, ls⟩ sf ts us ss fs
  obtain ⟨s2, d1, d2, _, d4⟩ := look_ok h0 c2 sf (tells_again ts) (upToDate_again us) ss fs
  refine ⟨g2, s2, ?_, d2, b4, d4⟩
  unfold loadGrafts openBoth openOrRefresh
  simp only [a1, b1, c1, d1, Res.bind_ok]
  simp

theorem refreshRoots_ok (h0 : 0 < size) (r : Repo) {sfs : List (Option Bytes)} (hs : Looked sha size r.shallow sfs)
    (ts : Tells sha (sfs ++ [r.shallowFile])) (us : UpToDate (sfs ++ [r.shallowFile])) (ss : List Graft) (fs : Says size r.shallowFile ss 0) :
    ∃ s l, shallowRoots sha size r = .ok ({ r with shallow := some s }, 0, l) ∧ l.Nodup ∧ (∀ id, id ∈ l ↔ (parentsOf ss id).isSome) ∧
      (∀ id, lookup s.map id = parentsOf ss id) ∧ Looked sha size (some s) (sfs ++ [r.shallowFile]) := by
  obtain ⟨gf, sf, go, so⟩ := r
  dsimp only at *
  obtain ⟨s0, cs, es, ls⟩ := hs
  subst es
  obtain ⟨s1, c1, c2, c3, c4⟩ := look_ok h0 ⟨s0, cs, rfl, ls⟩ sf ts us ss fs
  refine ⟨s1, oids s1, ?_, c3, ?_, c4, c2⟩
  · unfold shallowRoots refreshRoots
    simp only [c1, Res.bind_ok]
    simp
  · intro id
    unfold oids
    rw [mem_keys, c4]

theorem openRepo_ok (h0 : 0 < size) (gf sf : Option Bytes) (tg : Tells sha [gf]) (ts : Tells sha [sf]) (gs ss : List Graft) (cg cs : Int)
    (fg : Says size gf gs cg) (fs : Says size sf ss cs) :
    if cg = 0 ∧ cs = 0 then
      ∃ g s, openRepo sha size gf sf = .ok (⟨gf, sf, some g, some s⟩, 0) ∧ Looked sha size (some g) [gf] ∧ Looked sha size (some s) [sf] ∧
        (∀ id, lookup g.map id = parentsOf gs id) ∧ (∀ id, lookup s.map id = parentsOf ss id)
    else ∃ r, openRepo sha size gf sf = .ok (r, -1) := by
  have one : ∀ (f : Option Bytes) (gs : List Graft) (c : Int), Tells sha [f] → Says size f gs c →
      ∃ g, refresh sha size new f = .ok (g, c) ∧ (∀ id, lookup g.map id = parentsOf gs id) := by
    intro f gs c ht hf
    cases f with
    | none =>
      obtain ⟨rfl, rfl⟩ := hf
      exact ⟨_, rfl, fun id => rfl⟩
    | some text =>
      obtain ⟨ls, hl, hff⟩ := hf
      obtain ⟨g, h1, _, h3⟩ := settled_spec (sha := sha) h0 [some text] ht text 0 ⟨[], rfl, by simp [lastRead]⟩ ls hl gs c hff
      refine ⟨g, ?_, h3⟩
      rw [if_pos rfl] at h1
      exact refresh_of_look (fs := []) rfl h1
  have code : ∀ (f : Option Bytes) (gs : List Graft) (c : Int), Says size f gs c → c = 0 ∨ c = -1 := by
    intro f gs c h
    cases f with
    | none => exact .inl h.2
    | some text =>
      obtain ⟨ls, hl, hff⟩ := h
      clear hl
      induction hff with
      | done => exact .inl rfl
      | bad => exact .inr rfl
      | good _ _ _ _ _ _ _ ih => exact ih
  obtain ⟨g, g1, g2⟩ := one gf gs cg tg fg
  obtain ⟨s, s1, s2⟩ := one sf ss cs ts fs
  unfold openRepo loadGrafts openBoth openOrRefresh
  rcases code gf gs cg fg with rfl | rfl
  · rcases code sf ss cs fs with rfl | rfl
    · simp only [g1, s1, Res.bind_ok]
      exact ⟨g, s, rfl, looked_new gf g1, looked_new sf s1, g2, s2⟩
    · simp only [g1, s1, Res.bind_ok]
      exact ⟨_, rfl⟩
  · simp only [g1, Res.bind_ok]
    rw [if_neg (by simp)]
    exact ⟨_, rfl⟩

/-! ## Reachable states -/

/-- both are loaded -/
def Loaded (sha : Bytes → Bytes) (size : Nat) (r : Repo) : Prop := ∃ gfs sfs, Looked sha size r.grafts gfs ∧ Looked sha size r.shallow sfs

theorem loaded_loadGrafts (h0 : 0 < size) {r : Repo} (h : Loaded sha size r) : ∃ r' c, loadGrafts sha size r = .ok (r', c) ∧ Loaded sha size r' := by
  obtain ⟨gfs, sfs, hg, hs⟩ := h
  obtain ⟨gf, sf, go, so⟩ := r
  obtain ⟨g0, cg, eg, lg⟩ := hg
  obtain ⟨s0, cs, es, ls⟩ := hs
  dsimp only at eg es
  subst eg es
  obtain ⟨g1, c1, a1, a2⟩ := looked_refresh h0 ⟨g0, cg, rfl, lg⟩ gf
  obtain ⟨s1, c2, b1, b2⟩ := looked_refresh h0 ⟨s0, cs, rfl, ls⟩ sf
  obtain ⟨g2, c3, d1, d2⟩ := looked_refresh h0 a2 gf
  obtain ⟨s2, c4, e1, e2⟩ := looked_refresh h0 b2 sf
  unfold loadGrafts openBoth openOrRefresh
  simp only [a1, b1, d1, e1, Res.bind_ok]
  split
  · exact ⟨_, _, rfl, _, _, a2, ⟨s0, cs, rfl, ls⟩⟩
  · split
    · exact ⟨_, _, rfl, _, _, a2, b2⟩
    · split
      · exact ⟨_, _, rfl, _, _, d2, b2⟩
      · exact ⟨_, _, rfl, _, _, d2, e2⟩

theorem tostr_total (id : Bytes) (h : id.length = size) : ∃ t, Oid.tostr size 65 (some id) = .ok t := by
  obtain ⟨t, h1, _⟩ := Oid.C02_tostr id 65 (by omega)
  rw [h] at h1
  exact ⟨t, h1⟩

theorem loaded_event (h0 : 0 < size) (h32 : size ≤ 32) {r : Repo} (h : Loaded sha size r) (e : Event) (he : EventOk size e) :
    ∃ r', event sha size r e = .ok r' ∧ Loaded sha size r' := by
  cases e with
  | graftsFile f => exact ⟨_, rfl, h⟩
  | shallowFile f => exact ⟨_, rfl, h⟩
  | roots =>
    obtain ⟨gfs, sfs, hg, hs⟩ := h
    obtain ⟨gf, sf, go, so⟩ := r
    obtain ⟨s0, cs, es, ls⟩ := hs
    dsimp only at es hg
    subst es
    obtain ⟨s1, c2, b1, b2⟩ := looked_refresh h0 ⟨s0, cs, rfl, ls⟩ sf
    unfold event shallowRoots refreshRoots
    simp only [b1, Res.bind_ok]
    split
    · exact ⟨_, rfl, _, _, hg, b2⟩
    · exact ⟨_, rfl, _, _, hg, b2⟩
  | store roots placed =>
    have h' : Loaded sha size (if placed then { r with shallowFile := some (Spec.rootsFile roots) } else r) := by
      cases placed <;> exact h
    obtain ⟨r', c, h1, h2⟩ := loaded_loadGrafts h0 h'
    unfold event shallowRootsWrite afterWrite
    simp only [rootsText_spec h32 roots he, Res.bind_ok, h1]
    split
    · exact ⟨_, rfl, h2⟩
    · split
      · exact ⟨_, rfl, h2⟩
      · exact ⟨_, rfl, h2⟩

theorem loaded_events (h0 : 0 < size) (h32 : size ≤ 32) : ∀ (es : List Event) (r : Repo), Loaded sha size r → (∀ e ∈ es, EventOk size e) →
    ∃ r', events sha size r es = .ok r' ∧ Loaded sha size r' := by
  intro es
  induction es with
  | nil => intro r h _; exact ⟨r, rfl, h⟩
  | cons e es ih =>
    intro r h he
    obtain ⟨r1, h1, h2⟩ := loaded_event h0 h32 h e (he e (by simp))
    obtain ⟨r2, h3, h4⟩ := ih r1 h2 (fun e he' => he e (by simp [he']))
    refine ⟨r2, ?_, h4⟩
    unfold events
    rw [h1, Res.bind_ok, h3]

end Verif.Grafts
