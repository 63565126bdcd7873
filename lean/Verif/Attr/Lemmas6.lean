import Verif.Attr.Lemmas5
/-! # The cache -/
namespace Verif.Attr
open Spec (Value Assign Place Repo Plain PlainRepo Read Decides Silent topRules dirRules filesFor macrosAfter macroFiles readOpt readFile readLine lines builtin)
open Ignore (APath Wf mkPath walkUp)
open Ignore.Spec (Rule)

/-- the rules of a file -/
def rulesOf (repo : Repo) (E : List Place) : Key → List (Rule × List Assign)
  | .system => topRules repo E 0
  | .config => topRules repo E 1
  | .info => topRules repo E 2
  | .dir p d => dirRules repo E d p

/-- the files read first -/
def topKeys (E : List Place) : List Key := [.system, .config, .info] ++ (.workdir :: .index :: E).map (fun p => .dir p [])

theorem macroFiles_eq (repo : Repo) (E : List Place) : macroFiles repo E = (topKeys E).map (textOf repo) := by
  simp [macroFiles, topKeys, textOf]

theorem topKeys_nodup {E : List Place} (h : (Place.workdir :: .index :: E).Nodup) : (topKeys E).Nodup := by
  unfold topKeys
  rw [List.nodup_append]
  refine ⟨by decide, ?_, by simp⟩
  exact List.Pairwise.map _ (fun a b hab e => hab (by cases e; rfl)) h

theorem topKeys_context {E : List Place} {k : Key} (h : k ∈ topKeys E) : contextOf k = none := by
  simp [topKeys] at h
  rcases h with rfl | rfl | rfl | rfl | rfl | ⟨p, -, rfl⟩ <;> rfl

theorem idxOf_split {l1 l2 : List Place} {p : Place} (h : p ∉ l1) : (l1 ++ p :: l2).idxOf p = l1.length := by
  rw [List.idxOf_append, if_neg h]
  simp

theorem topRules_at (repo : Repo) {E : List Place} {done todo : List Key} {k : Key} (e : topKeys E = done ++ k :: todo) :
    topRules repo E done.length = (readOpt repo.icase none true (macrosAfter repo (done.map (textOf repo))) (textOf repo k)).rules := by
  unfold topRules
  rw [macroFiles_eq, e]
  congr 2
  · congr 1
    rw [← List.map_take, List.take_left' rfl]
  · simp

theorem rulesOf_split (repo : Repo) {E : List Place} (hE : (Place.workdir :: .index :: E).Nodup) {done todo : List Key} {k : Key} (e : topKeys E = done ++ k :: todo) :
    rulesOf repo E k = (readOpt repo.icase none true (macrosAfter repo (done.map (textOf repo))) (textOf repo k)).rules := by
  rw [← topRules_at repo e]
  unfold topKeys at e
  match done, e with
  | [], e => simp at e; obtain ⟨rfl, -⟩ := e; rfl
  | [a], e => simp at e; obtain ⟨-, rfl, -⟩ := e; rfl
  | [a, b], e => simp at e; obtain ⟨-, -, rfl, -⟩ := e; rfl
  | a :: b :: c :: rest, e =>
    simp only [List.cons_append, List.nil_append, List.cons.injEq] at e
    obtain ⟨-, -, -, e⟩ := e
    obtain ⟨l1, l2', h1, rfl, h3⟩ := List.map_eq_append_iff.mp e
    obtain ⟨p, l2, rfl, rfl, -⟩ := List.map_eq_cons_iff.mp h3
    show dirRules repo E [] p = _
    unfold dirRules
    rw [if_pos rfl, h1, idxOf_split]
    · simp; congr 1; omega
    · rw [h1, List.nodup_append] at hE
      intro h
      exact hE.2.2 p h p (by simp) rfl

theorem macrosAfter_snoc (repo : Repo) (fs : List (Option Bytes)) (f : Option Bytes) :
    macrosAfter repo (fs ++ [f]) = (readOpt repo.icase none true (macrosAfter repo fs) f).macros := by
  unfold macrosAfter
  rw [List.foldl_append]; rfl

theorem readFile_macros (icase : Bool) (below : Option Bytes) (m : Spec.Macros) (t : Bytes) : (readFile icase below false m t).macros = m := by
  unfold readFile
  have : ∀ (ls : List Bytes) (s : Read), (ls.foldl (readLine icase below false) s).macros = s.macros := by
    intro ls
    induction ls with
    | nil => intro s; rfl
    | cons l ls ih =>
      intro s
      rw [List.foldl_cons, ih]
      unfold readLine
      split
      · rfl
      · dsimp only
        split
        · rfl
        · rfl
  exact this _ _

theorem plain_text {repo : Repo} (h : PlainRepo repo) {k : Key} {t : Bytes} (e : textOf repo k = some t) : Plain t := by
  cases k with
  | system => exact h.system t e
  | config => exact h.config t e
  | info => exact h.info t e
  | dir p d => exact h.file p d t e

/-- the state while the files are read for the first time -/
structure InvA (repo : Repo) (E : List Place) (done : List Key) (c : Cache) : Prop where
  macros : MRep c.macros (macrosAfter repo (done.map (textOf repo)))
  known : ∀ x ∈ c.files, x.1 ∈ done ∧ FRep x.2 (rulesOf repo E x.1)
  there : ∀ k ∈ done, textOf repo k ≠ none → ∃ x ∈ c.files, x.1 = k

/-- the state after that -/
structure InvB (repo : Repo) (E : List Place) (c : Cache) : Prop where
  macros : MRep c.macros (macrosAfter repo (macroFiles repo E))
  known : ∀ x ∈ c.files, FRep x.2 (rulesOf repo E x.1)
  there : ∀ k ∈ topKeys E, textOf repo k ≠ none → ∃ x ∈ c.files, x.1 = k

theorem InvA.toB {repo : Repo} {E : List Place} {c : Cache} (h : InvA repo E (topKeys E) c) : InvB repo E c :=
  ⟨by rw [macroFiles_eq]; exact h.macros, fun x hx => (h.known x hx).2, h.there⟩

theorem find_key {files : List (Key × List ARule)} {k : Key} : (∃ x, files.find? (fun p => decide (p.1 = k)) = some x ∧ x ∈ files ∧ x.1 = k) ∨ (files.find? (fun p => decide (p.1 = k)) = none ∧ ∀ x ∈ files, x.1 ≠ k) := by
  cases hf : files.find? (fun p => decide (p.1 = k)) with
  | none =>
    right
    refine ⟨rfl, ?_⟩
    intro x hx
    simpa using List.find?_eq_none.mp hf x hx
  | some x =>
    left
    have := List.find?_some hf
    exact ⟨x, rfl, List.mem_of_find?_eq_some hf, by simpa using this⟩

theorem getA {repo : Repo} (hp : PlainRepo repo) {E : List Place} (hE : (Place.workdir :: .index :: E).Nodup) {done todo : List Key} {k : Key} (e : topKeys E = done ++ k :: todo) {c : Cache}
    (h : InvA repo E done c) : ∃ rs c', cacheGet repo true c k = .ok (rs, c') ∧ InvA repo E (done ++ [k]) c' := by
  have hk : k ∉ done := by
    have := topKeys_nodup hE
    rw [e, List.nodup_append] at this
    exact fun hm => this.2.2 k hm k (by simp) rfl
  unfold cacheGet
  rcases find_key (files := c.files) (k := k) with ⟨x, -, hx, rfl⟩ | ⟨h1, h2⟩
  · exact absurd (h.known x hx).1 hk
  · rw [h1]
    dsimp only
    have hms := macrosAfter_snoc repo (done.map (textOf repo)) (textOf repo k)
    have hrs := rulesOf_split repo hE e
    cases ht : textOf repo k with
    | none =>
      rw [ht] at hms
      refine ⟨[], c, rfl, ?_, ?_, ?_⟩
      · rw [List.map_append, List.map_singleton, ht, hms]; exact h.macros
      · intro x hx
        exact ⟨List.mem_append_left _ (h.known x hx).1, (h.known x hx).2⟩
      · intro j hj hjt
        rcases List.mem_append.mp hj with hj | hj
        · exact h.there j hj hjt
        · rw [List.mem_singleton.mp hj] at hjt; exact absurd ht hjt
    | some t =>
      rw [ht] at hms hrs
      rw [topKeys_context (by rw [e]; simp)]
      obtain ⟨rs, m, g1, g2, g3⟩ := parseBuffer_ok repo.icase none true h.macros (plain_text hp ht)
      dsimp only
      rw [g1]
      dsimp only
      refine ⟨_, _, rfl, ?_, ?_, ?_⟩
      · rw [List.map_append, List.map_singleton, ht, hms]; exact g3
      · intro x hx
        rcases List.mem_append.mp hx with hx | hx
        · exact ⟨List.mem_append_left _ (h.known x hx).1, (h.known x hx).2⟩
        · rw [List.mem_singleton.mp hx]
          exact ⟨by simp, by rw [hrs]; exact g2⟩
      · intro j hj hjt
        rcases List.mem_append.mp hj with hj | hj
        · obtain ⟨x, hx, e⟩ := h.there j hj hjt
          exact ⟨x, by simp [hx], e⟩
        · rw [List.mem_singleton.mp hj]
          exact ⟨(k, rs), by simp, rfl⟩

theorem getAllA {repo : Repo} (hp : PlainRepo repo) {E : List Place} (hE : (Place.workdir :: .index :: E).Nodup) (todo : List Key) : ∀ {done : List Key} {c : Cache}, topKeys E = done ++ todo →
    InvA repo E done c → ∃ rs c', cacheGetAll repo c (todo.map (fun k => (k, true))) = .ok (rs, c') ∧ InvB repo E c' := by
  induction todo with
  | nil =>
    intro done c e h
    rw [List.append_nil] at e
    subst e
    exact ⟨[], c, rfl, h.toB⟩
  | cons k todo ih =>
    intro done c e h
    obtain ⟨r, c1, h1, h2⟩ := getA hp hE e h
    obtain ⟨rs, c2, h3, h4⟩ := ih (done := done ++ [k]) (by rw [e]; simp) h2
    refine ⟨r :: rs, c2, ?_, h4⟩
    rw [List.map_cons, cacheGetAll, h1]
    dsimp only
    rw [h3]

/-- what may be asked for -/
def Fine (E : List Place) (x : Key × Bool) : Prop := x.1 ∈ topKeys E ∨ ∃ p d, x.1 = .dir p d ∧ d ≠ [] ∧ x.2 = false

theorem getB {repo : Repo} (hp : PlainRepo repo) {E : List Place} (hE : (Place.workdir :: .index :: E).Nodup) {x : Key × Bool} (hx : Fine E x) {c : Cache} (h : InvB repo E c) :
    ∃ rs c', cacheGet repo x.2 c x.1 = .ok (rs, c') ∧ FRep rs (rulesOf repo E x.1) ∧ InvB repo E c' := by
  obtain ⟨k, b⟩ := x
  unfold cacheGet
  dsimp only
  rcases find_key (files := c.files) (k := k) with ⟨x, h1, hxm, rfl⟩ | ⟨h1, h2⟩
  · rw [h1]
    exact ⟨_, _, rfl, h.known x hxm, h⟩
  · rw [h1]
    dsimp only
    rcases hx with hk | ⟨p, d, hk, hd, hb⟩
    · have ht : textOf repo k = none := by
        cases ht : textOf repo k with
        | none => rfl
        | some t =>
          obtain ⟨x, hx, e⟩ := h.there k hk (by rw [ht]; simp)
          exact absurd e (h2 x hx)
      rw [ht]
      refine ⟨[], c, rfl, ?_, h⟩
      obtain ⟨done, todo, e⟩ := List.append_of_mem hk
      rw [rulesOf_split repo hE e, ht]
      exact .nil
    · dsimp only at hk hb
      subst hk hb
      have hr : rulesOf repo E (.dir p d) = (readOpt repo.icase (some d) false (macrosAfter repo (macroFiles repo E)) (repo.file p d)).rules := by
        show dirRules repo E d p = _
        unfold dirRules
        rw [if_neg hd]
      rw [show textOf repo (.dir p d) = repo.file p d from rfl]
      cases ht : repo.file p d with
      | none =>
        rw [ht] at hr
        exact ⟨[], c, rfl, by rw [hr]; exact .nil, h⟩
      | some t =>
        rw [ht] at hr
        have hc : contextOf (.dir p d) = some d := if_neg hd
        rw [hc]
        obtain ⟨rs, m, g1, g2, g3⟩ := parseBuffer_ok repo.icase (some d) false h.macros (hp.file p d t ht)
        dsimp only
        rw [g1]
        dsimp only
        rw [readFile_macros] at g3
        refine ⟨_, _, rfl, by rw [hr]; exact g2, g3, ?_, ?_⟩
        · intro x hx
          rcases List.mem_append.mp hx with hx | hx
          · exact h.known x hx
          · rw [List.mem_singleton.mp hx, hr]; exact g2
        · intro j hj hjt
          obtain ⟨x, hx, e⟩ := h.there j hj hjt
          exact ⟨x, by simp [hx], e⟩

theorem getAllB {repo : Repo} (hp : PlainRepo repo) {E : List Place} (hE : (Place.workdir :: .index :: E).Nodup) (l : List (Key × Bool)) : ∀ {c : Cache}, (∀ x ∈ l, Fine E x) → InvB repo E c →
    ∃ rs c', cacheGetAll repo c l = .ok (rs, c') ∧ FsRep rs (l.map (fun x => rulesOf repo E x.1)) ∧ InvB repo E c' := by
  induction l with
  | nil => intro c _ h; exact ⟨[], c, rfl, .nil, h⟩
  | cons x l ih =>
    intro c hl h
    obtain ⟨r, c1, h1, h2, h3⟩ := getB hp hE (hl x (by simp)) h
    obtain ⟨rs, c2, h4, h5, h6⟩ := ih (fun y hy => hl y (by simp [hy])) h3
    refine ⟨r :: rs, c2, ?_, .cons h2 h5, h6⟩
    rw [cacheGetAll, h1]
    dsimp only
    rw [h4]

theorem extra_eq (o : Options) : extraPlaces o = Spec.extraPlaces o.includeHead o.includeCommit := rfl

theorem extra_nodup (o : Options) : (Place.workdir :: .index :: extraPlaces o).Nodup := by
  unfold extraPlaces
  cases o.includeHead <;> cases o.includeCommit <;> decide

theorem decide_eq (o : Options) : decideSources o = Spec.places o.order o.includeHead o.includeCommit := by
  unfold decideSources Spec.places
  rw [extra_eq]
  congr 1
  match o.order with
  | 0 => rfl
  | 1 => rfl
  | 2 => rfl
  | n + 3 => simp

theorem setup_eq (o : Options) : setupKeys o = (topKeys (extraPlaces o)).map (fun k => (k, true)) := by
  simp [setupKeys, topKeys]

theorem collect_fine (o : Options) (path : Bytes) : ∀ x ∈ collectKeys o path, Fine (extraPlaces o) x := by
  intro x hx
  have hd : ∀ d p, p ∈ decideSources o → Fine (extraPlaces o) (.dir p d, decide (d = [])) := by
    intro d p hp
    by_cases h : d = []
    · left
      subst h
      have : p ∈ Place.workdir :: .index :: extraPlaces o := by
        unfold decideSources at hp
        rcases List.mem_append.mp hp with hp | hp
        · split at hp
          · simp at hp; rcases hp with rfl | rfl <;> simp
          · split at hp
            · simp at hp; rcases hp with rfl | rfl <;> simp
            · split at hp
              · simp at hp; subst hp; simp
              · cases hp
        · simp [hp]
      unfold topKeys
      exact List.mem_append_right _ (List.mem_map.mpr ⟨p, this, rfl⟩)
    · right
      exact ⟨p, d, rfl, h, by simp [h]⟩
  unfold collectKeys at hx
  dsimp only at hx
  rcases List.mem_append.mp hx with hx | hx
  · rcases List.mem_cons.mp hx with rfl | hx
    · left; simp [topKeys]
    · obtain ⟨d, -, hx⟩ := List.mem_flatMap.mp hx
      obtain ⟨p, hp, rfl⟩ := List.mem_map.mp hx
      exact hd d p hp
  · rcases List.mem_cons.mp hx with rfl | hx
    · left; simp [topKeys]
    · split at hx
      · cases hx
      · rw [List.mem_singleton.mp hx]
        left; simp [topKeys]

/-- nothing asked yet, or everything at the top read -/
def Good (repo : Repo) (E : List Place) (c : Cache) : Prop := InvA repo E [] c ∨ InvB repo E c

theorem collectFiles_ok {repo : Repo} (hp : PlainRepo repo) (o : Options) {c : Cache} (h : Good repo (extraPlaces o) c) (path : Bytes) :
    ∃ rs c', collectFiles repo o c path = .ok (rs, c') ∧ FsRep rs ((collectKeys o path).map (fun x => rulesOf repo (extraPlaces o) x.1)) ∧ Good repo (extraPlaces o) c' := by
  have hE := extra_nodup o
  have h1 : ∃ rs c1, cacheGetAll repo c (setupKeys o) = .ok (rs, c1) ∧ InvB repo (extraPlaces o) c1 := by
    rw [setup_eq]
    rcases h with h | h
    · exact getAllA hp hE _ (done := []) rfl h
    · obtain ⟨rs, c1, g1, -, g3⟩ := getAllB hp hE ((topKeys (extraPlaces o)).map (fun k => (k, true))) (c := c) (by
        intro x hx
        obtain ⟨k, hk, rfl⟩ := List.mem_map.mp hx
        exact .inl hk) h
      exact ⟨rs, c1, g1, g3⟩
  obtain ⟨rs, c1, g1, g2⟩ := h1
  obtain ⟨fs, c2, g3, g4, g5⟩ := getAllB hp hE (collectKeys o path) (collect_fine o path) g2
  refine ⟨fs, c2, ?_, g4, .inr g5⟩
  unfold collectFiles
  rw [g1]
  dsimp only
  rw [g3]

theorem init_ok (repo : Repo) (E : List Place) {c : Cache} (h : initCache = .ok c) : Good repo E c := by
  left
  obtain ⟨vec, h1, h2⟩ := parseAssigns_ok (m := []) (sm := fun _ => none) (by intro n; exact .inl ⟨rfl, rfl⟩) (L := b!"-diff -merge -text -crlf") (R := []) (by decide +kernel) (by simp)
  rw [List.append_nil] at h1
  have e : Spec.expand (fun _ => none) (Spec.readAssigns b!"-diff -merge -text -crlf") = [⟨b!"diff", .false⟩, ⟨b!"merge", .false⟩, ⟨b!"text", .false⟩, ⟨b!"crlf", .false⟩] := by decide +kernel
  rw [e] at h2
  unfold initCache at h
  rw [h1] at h
  cases h
  refine ⟨?_, by simp, by simp⟩
  show MRep _ builtin
  exact MRep.put (m := []) (sm := fun _ => none) (by intro n; exact .inl ⟨rfl, rfl⟩) h2 (by intro h; have := h2.isNil.mp h; cases this)

theorem init_exists : ∃ c, initCache = .ok c := by
  obtain ⟨vec, h1, h2⟩ := parseAssigns_ok (m := []) (sm := fun _ => none) (by intro n; exact .inl ⟨rfl, rfl⟩) (L := b!"-diff -merge -text -crlf") (R := []) (by decide +kernel) (by simp)
  rw [List.append_nil] at h1
  exact ⟨_, by unfold initCache; rw [h1]⟩

theorem collect_files (repo : Repo) (o : Options) {ds : List Bytes} {n : Bytes} (hds : ∀ d ∈ ds, Ignore.Spec.GoodName d) (hn : c!"/" ∉ n) :
    (collectKeys o (Ignore.Spec.dirPath ds ++ n)).map (fun x => rulesOf repo (extraPlaces o) x.1) =
      filesFor repo (Spec.places o.order o.includeHead o.includeCommit) (Spec.extraPlaces o.includeHead o.includeCommit) (!o.noSystem) (Ignore.Spec.dirPath ds ++ n) := by
  unfold collectKeys filesFor
  have e : ((Ignore.Spec.dirPath ds ++ n).reverse.dropWhile (· != c!"/")).reverse = Ignore.Spec.dirPath ds := Ignore.dirName_path ds hn
  dsimp only
  rw [e, Ignore.walkUp_eq ds hds _ (Ignore.length_le_dirPath ds), Ignore.dirName_path ds hn, Ignore.ancestors_eq ds hds, decide_eq, ← extra_eq]
  simp only [List.map_append, List.map_cons, List.cons_append, List.cons.injEq]
  refine ⟨rfl, ?_⟩
  congr 1
  · rw [List.map_flatMap]
    congr 1
    funext d
    rw [List.map_map]
    rfl
  · congr 1
    cases o.noSystem <;> rfl

end Verif.Attr
