import Verif.RefDb.LemmasWrite
/-! # The processes that rewrite the packed file -/
namespace Verif.RefDb
open Verif.Conc Verif.FileBuf Verif.RefPacked

variable {size : Nat} {tasks : Pid → Task} {rd : Bool} {p : Pid}

theorem prefixLoop_length {n q : Nat} {id s r : Bytes} (h : Oid.prefixLoop n q id s = .ok r) : r.length = id.length := by
  induction n generalizing q id s with
  | zero => unfold Oid.prefixLoop at h; cases h; rfl
  | succ n ih =>
    cases s with
    | nil => cases h
    | cons c s =>
      unfold Oid.prefixLoop at h
      simp only at h
      split at h
      · cases h
      · rw [ih h]; simp [Oid.orNibble]

theorem looseParseOid_length {b id : Bytes} (h : looseParseOid size b = .ok id) : id.length = size := by
  unfold looseParseOid at h
  split at h
  · cases h
  · split at h
    · rename_i id' x hp hx
      split at h
      · cases h
        unfold Oid.fromPrefix at hp
        split at hp
        · cases hp
        · split at hp
          · cases hp
          · rw [prefixLoop_length hp]; simp
      · cases h
    · cases h
    · cases h
    · cases h

/-- the other processes do not rewrite the packed file -/
def Alone (tasks : Pid → Task) (p : Pid) : Prop := ∀ q, q ≠ p → ¬ (tasks q).rewrites

/-- where everybody's steps agree with `s` on the files that are not locks -/
theorem content_lockStep {t x : Path} {s s' : FS} (hb : Base p s s') (hd : ∀ x, x ≠ lockPath t → s'.dir x = s.dir x) (hx : ¬ IsLock x) :
    s'.content x = s.content x := hb.content_same hx (hd x (ne_lockPath hx))

/-! ## Reading the packed file -/

theorem reload_prog (hs : 0 < size) {J : FS → Prop} (hst : Stable (Chg size tasks) p J) (hq : Quiet (Chg size tasks) p J) {o : Option Bytes}
    (hJ : ∀ s, J s → s.content packedRefs = o) (ho : o = none ∨ ∃ b, o = some b ∧ PackedFile size b) (post : Res (List Ent) → FS → Prop)
    (hok : ∀ C s, CacheOk size C → (∀ r ∈ C, r.2 = false) → (∀ n, packedVal size o n = cacheVal C n) → J0 J s → post (.ok C) s)
    (herr : ∀ s, J0 J s → post (.err (-1)) s) {s : FS} (h : J0 J s) : OkP (Chg size tasks) rd p post (reload size) s := by
  unfold reload
  refine Ok.cmd _ h (J0.stable hst) ?_
  intro s1 h1 r s2 he
  have he : xReadAll rd packedRefs s1 r s2 := he
  obtain ⟨rfl, he⟩ := he
  refine ⟨quiet_same hq h1.1 h1.2, ?_⟩
  have hc := hJ _ h1.2
  cases r with
  | fail => exact Ok.retI _ h1 (J0.stable hst) (fun s h => herr s h)
  | enoent =>
    have he : s2.content packedRefs = none := he
    rw [hc] at he
    subst he
    exact Ok.retI _ h1 (J0.stable hst) (fun s h => hok [] s ⟨fun r hr => (by cases hr), List.Pairwise.nil⟩ (fun r hr => by cases hr) (fun n => rfl) h)
  | data b =>
    have he : s2.content packedRefs = some b := he
    rw [hc] at he
    rcases ho with ho | ⟨b', ho, hp⟩
    · rw [he] at ho; cases ho
    · rw [he] at ho; cases ho
      obtain ⟨c, hc1, hc2, hc3⟩ := reload_ok hs hp
      simp only [hc1]
      refine Ok.retI _ h1 (J0.stable hst) (fun s h => hok _ s hc2 ?_ ?_ h)
      · intro r hr
        obtain ⟨x, _, rfl⟩ := List.mem_map.mp hr
        rfl
      · intro n; rw [he]; exact hc3 n

/-! ## Writing the packed file -/

theorem writeEntries_ok {J : FS → Prop} (hst : Stable (Chg size tasks) p J) (hq : Quiet (Chg size tasks) p J) {o : Opts} (hnb : o.noBuffer = false)
    {i : Ino} {c : Option Bytes} (peel : Bytes → Bytes → Option (Option Bytes)) (l : List Ent) :
    ∀ (f : FB) (_ : Owns f packedRefs o i) (sent : Bytes) (post : Bool × FB → FS → Prop)
    (_ : ∀ f' s, Owns f' packedRefs o i → (∃ m, JW J p packedRefs i c f' m s) → post (false, f') s)
    (_ : ∀ f' c' body s, Owns f' packedRefs o i → peeled peel l c' → writeRefs size c' = .ok body → JW J p packedRefs i c f' (sent ++ body) s →
      post (true, f') s)
    {s : FS} (_ : JW J p packedRefs i c f sent s), OkP (Chg size tasks) rd p post (writeEntries size peel l f) s := by
  have hS := fun f m => JW.stable (J := J) (i := i) (c := c) (f := f) (sent := m) packed_not_lock hst
  induction l with
  | nil =>
    intro f hf sent post hbad hgood s h
    unfold writeEntries
    exact Ok.retI _ h (hS f sent) (fun s h => hgood f [] [] s hf .nil rfl (by rw [List.append_nil]; exact h))
  | cons r rs ih =>
    intro f hf sent post hbad hgood s h
    have hb : ∀ f m s, Owns f packedRefs o i → JW J p packedRefs i c f m s → OkP (Chg size tasks) rd p post (pure (false, f)) s :=
      fun f m s hf h => Ok.retI _ h (hS f m) (fun s h => hbad f s hf ⟨m, h⟩)
    unfold writeEntries
    cases hfp : findPeel peel r.1 with
    | none => exact hb f sent s hf h
    | some r' =>
      simp only
      cases hw : writeRef size r' with
      | err e => exact hb f sent s hf h
      | ub => exact hb f sent s hf h
      | ok t =>
        simp only
        refine Ok.bind (fbPrintf_ok hst hq packed_not_lock f hf t sent hnb _ ?_ h)
        intro e f' s1 hf' _ _ _ h1
        simp only
        split
        · exact hb f' _ s1 hf' h1
        · refine ih f' hf' (sent ++ t) post hbad ?_ h1
          intro f2 c' body s2 hf2 hp hbody h2
          refine hgood f2 (r' :: c') (t ++ body) s2 hf2 (.cons hfp hp) ?_ (by rw [← List.append_assoc]; exact h2)
          simp [writeRefs, hw, hbody]

/-- The rewriting of the packed file for the cache `C`. `hren` says what the caller knows when the new file is moved into place. -/
theorem packedWrite_ok (hs : 0 < size) {J J' : FS → Prop} (hst : Stable (Chg size tasks) p J) (hl : LockStep (Chg size tasks) p J packedRefs)
    (hst' : Stable (Chg size tasks) p J') (hq' : Quiet (Chg size tasks) p J') {o : Opts} (hnb : o.noBuffer = false) (hap : o.append = false)
    {C : List Ent} (hC : CacheOk size C) {peel : Bytes → Bytes → Option (Option Bytes)} (hpeel : ∀ n x q, peel n x = some (some q) → q.length = size)
    (hren : ∀ s i b, WF s → J s → Hold p packedRefs i s → s.data i = b → (∀ n, packedVal size (some b) n = cacheVal C n) →
      Base p s (moved p packedRefs i s) → Chg size tasks p s (moved p packedRefs i s) ∧ J' (moved p packedRefs i s))
    (post : Int → FS → Prop) (herr : ∀ e s, e < 0 → J0 J s → post e s)
    (hcont : ∀ s, J0 J' s → OkP (Chg size tasks) rd p post (removeLoose size o (sortCache C) none []) s)
    {s : FS} (h : J0 J s) : OkP (Chg size tasks) rd p post (packedWrite size o peel C) s := by
  have hbail : ∀ (f : FB) e i c s, e < 0 → Owns f packedRefs o i → (∃ m, JW J p packedRefs i c f m s) →
      OkP (Chg size tasks) rd p post (bail f e) s := by
    rintro f e i c s he hf ⟨m, d, h, _⟩
    unfold bail
    refine Ok.bind (cleanup_lock hst packed_not_lock hl f hf.path _ ?_ ⟨d, h⟩)
    intro s h
    exact Ok.retI _ h (J0.stable hst) (fun s h => herr e s he h)
  unfold packedWrite
  refine Ok.bind (fbOpen_ok hst packed_not_lock hl o _ ?_ ?_ h)
  · intro r f s hr h
    simp only
    rw [if_pos hr]
    exact Ok.retI _ h (J0.stable hst) (fun s h => herr r s hr h)
  · intro f i c s hf hbuf hle hopen h
    simp only
    rw [if_neg (by decide)]
    have hd0 : initial o c = [] := by unfold initial; rw [hap]; rfl
    rw [hd0] at h
    have h0 : JW J p packedRefs i c f [] s := ⟨[], h, fun _ => by rw [hbuf]; rfl⟩
    refine Ok.bind (fbPrintf_ok hst hl.quiet packed_not_lock f hf _ [] hnb _ ?_ h0)
    intro e f1 s1 hf1 _ _ _ h1
    simp only [List.nil_append] at h1 ⊢
    split
    · rename_i he
      exact hbail f1 e i c s1 he hf1 ⟨_, h1⟩
    · refine Ok.bind (writeEntries_ok hst hl.quiet hnb peel (sortCache C) f1 hf1 _ _ ?_ ?_ h1)
      · intro f2 s2 hf2 h2
        simp only
        rw [if_neg (by decide)]
        exact hbail f2 _ i c s2 (by decide) hf2 h2
      · intro f2 c' body s2 hf2 hp hbody h2
        simp only [if_true]
        obtain ⟨b, hb, hbv⟩ := written_ok hs hC hpeel hp
        have hbe : b = packedHeader ++ [c!"\n"] ++ body := by
          unfold packedContent at hb
          rw [hbody] at hb
          simp only [Res.bind_ok] at hb
          cases hb; simp
        rw [← hbe] at h2
        refine Ok.bind (fbCommit_ok hst hst' packed_not_lock hl hq' f2 hf2 b ?_ _ ?_ ?_ h2)
        · intro s3 h3 _ hbs
          exact hren s3 i b h3.wf h3.j h3.hold h3.data hbv hbs
        · intro s3 h3
          rw [if_pos (by decide)]
          exact Ok.retI _ h3 (J0.stable hst) (fun s h => herr _ s (by decide) h)
        · intro s3 h3
          rw [if_neg (by decide)]
          exact hcont s3 h3

/-! ## Removing loose files after packing -/

/-- the packed file answers as the cache does -/
def After (size : Nat) (C : List Ent) (s : FS) : Prop := ∀ n, packedVal size (s.content packedRefs) n = cacheVal C n

theorem After.stable (ha : Alone tasks p) (C : List Ent) : Stable (Chg size tasks) p (After size C) := by
  rintro a b _ h ⟨q, hq, hb, hc⟩ n
  rw [hc.packed (ha q hq)]; exact h n

theorem After.lockStep (C : List Ent) (t : Path) : LockStep (Chg size tasks) p (After size C) t :=
  lockStep_of fun s s' _ h hb hd _ n => by rw [content_lockStep hb hd packed_not_lock]; exact h n

theorem content_unlinked {t x : Path} {s : FS} (hne : x ≠ t) : ({ s with dir := upd s.dir t none } : FS).content x = s.content x := by
  unfold FS.content
  simp only
  rw [upd_ne _ _ hne]

theorem content_unlinked_same {t : Path} {s : FS} : ({ s with dir := upd s.dir t none } : FS).content t = none := by
  unfold FS.content
  simp only
  rw [upd_same]; rfl

theorem unlinked_shrink {t : Path} {s : FS} (n : Path) :
    ({ s with dir := upd s.dir t none } : FS).content n = s.content n ∨ ({ s with dir := upd s.dir t none } : FS).content n = none := by
  by_cases h : n = t
  · subst h; exact .inr content_unlinked_same
  · exact .inl (content_unlinked h)

/-- the packer unlinks a loose file whose value the packed file has -/
theorem unlink_packed {j : PackJob} (ht : tasks p = .pack j) {C : List Ent} (hC : CacheOk size C) {r : PackRef} (hr : (r, true) ∈ C) (hn : RefName r.name)
    {i : Ino} {s : FS} (hw : WF s) (h : After size C s) (hh : Hold p r.name i s) {b : Bytes} (hc : s.content r.name = some b)
    (hb : looseParse size b = .ok (.oid r.oid)) :
    G (Chg size tasks) p s { s with dir := upd s.dir r.name none } ∧ After size C { s with dir := upd s.dir r.name none } := by
  have hbs := Base.remove p r.name hn.lock i s hw hh
  have hpk : ({ s with dir := upd s.dir r.name none } : FS).content packedRefs = s.content packedRefs :=
    content_unlinked (fun e => hn.packed e.symm)
  have hrw : (tasks p).rewrites := by rw [ht]; trivial
  refine ⟨⟨hbs, ⟨?_, fun h => absurd hrw h, fun h => absurd hrw h, .inl rfl, fun _ n _ => unlinked_shrink n, ?_⟩⟩, ?_⟩
  · intro n _
    left
    by_cases hne : n = r.name
    · subst hne
      rw [val_eq, val_eq, content_unlinked_same, hpk, hc]
      simp only
      rw [h, hb, cacheVal_mem hC.distinct (r, true) hr]
    · exact val_same (content_unlinked hne) hpk
  · intro j' hj'; rw [ht] at hj'; cases hj'
  · intro n; rw [hpk]; exact h n

theorem removeOne_ok (hrd : rd = false) (ha : Alone tasks p) {j : PackJob} (ht : tasks p = .pack j) {C : List Ent} (hC : CacheOk size C) {r : PackRef}
    (hr : (r, true) ∈ C) (hn : RefName r.name) {i : Ino} {d : Bytes} {c : Option Bytes} (buf : Bytes) (post : Bytes → FS → Prop)
    (hpost : ∀ b s, (∃ c, JH (After size C) p r.name i d c s) → post b s) {s : FS} (h : JH (After size C) p r.name i d c s) :
    OkP (Chg size tasks) rd p post (removeOne size r buf) s := by
  have hst := After.stable (size := size) ha C
  have hq := (After.lockStep (size := size) (tasks := tasks) (p := p) C r.name).quiet
  have hS := fun c => JH.stable (i := i) (d := d) (c := c) hn.lock hst
  have hret : ∀ b c s, JH (After size C) p r.name i d c s → OkP (Chg size tasks) rd p post (pure b) s :=
    fun b c s h => Ok.retI _ h (hS c) (fun s h => hpost b s ⟨c, h⟩)
  unfold removeOne
  refine Ok.bind (readBuffer_ok hst hq hn.lock _ ?_ h)
  intro x s1 hx h1
  rcases hx with hx | ⟨hx, _⟩
  · cases c with
    | none =>
      simp only at hx
      subst hx
      simp only [if_true]
      exact hret _ _ _ h1
    | some b =>
      simp only at hx
      subst hx
      simp only
      unfold removeOne.removeChecked
      split
      · exact hret _ _ _ h1
      · rename_i hsym
        split
        · rename_i id hid
          split
          · rename_i he
            subst he
            refine Ok.cmd _ h1 (hS (some b)) ?_
            intro s2 h2 u s3 he
            have he : xUnlink r.name s2 u s3 := he
            have hp : looseParse size b = .ok (.oid r.oid) := by
              unfold looseParse
              rw [if_neg hsym, hid]
            cases u with
            | ok =>
              obtain ⟨_, he⟩ := he
              subst he
              obtain ⟨g1, g2⟩ := unlink_packed ht hC hr hn h2.wf h2.j h2.hold h2.content hp
              refine ⟨g1, hret _ none _ ⟨g1.1.wf h2.wf, g2, ?_, h2.data, content_unlinked_same⟩⟩
              refine ⟨?_, h2.hold.2⟩
              simp only
              rw [upd_ne _ _ (fun e => hn.lock ⟨_, e.symm⟩)]
              exact h2.hold.1
            | enoent =>
              obtain ⟨_, he⟩ := he
              subst he
              exact ⟨quiet_same hq h2.wf h2.j, hret _ _ _ h2⟩
            | fail =>
              have he : s3 = s2 := he
              subst he
              exact ⟨quiet_same hq h2.wf h2.j, hret _ _ _ h2⟩
          · exact hret _ _ _ h1
        · exact hret _ _ _ h1
  · rw [hrd] at hx; cases hx

theorem removeLoose_ok (hrd : rd = false) (ha : Alone tasks p) {j : PackJob} (ht : tasks p = .pack j) {C : List Ent} (hC : CacheOk size C)
    (hL : ∀ r ∈ C, r.2 = true → RefName r.1.name) (o : Opts) (l : List Ent) (hl : ∀ r ∈ l, r ∈ C) :
    ∀ (lock : Option FB) (buf : Bytes) {s : FS},
    (match lock with
      | none => J0 (After size C) s
      | some f => ∃ t i d c, ¬ IsLock t ∧ f.path = t ∧ JH (After size C) p t i d c s) →
    OkP (Chg size tasks) rd p (fun _ _ => True) (removeLoose size o l lock buf) s := by
  have hst := After.stable (size := size) ha C
  have hclean : ∀ (lock : Option FB) (s : FS) (P : Unit → FS → Prop) (_ : ∀ s, J0 (After size C) s → P () s),
      (match lock with
        | none => J0 (After size C) s
        | some f => ∃ t i d c, ¬ IsLock t ∧ f.path = t ∧ JH (After size C) p t i d c s) →
      OkP (Chg size tasks) rd p P (cleanupOpt lock) s := by
    intro lock s P hP h
    cases lock with
    | none => exact Ok.retI _ h (J0.stable hst) hP
    | some f =>
      obtain ⟨t, i, d, c, hnl, hf, h⟩ := h
      exact cleanup_lock hst hnl (After.lockStep C t) f hf _ hP ⟨d, h⟩
  induction l with
  | nil =>
    intro lock buf s h
    unfold removeLoose
    exact Ok.bind (hclean lock s _ (fun s h => Ok.retI _ h (J0.stable hst) (fun _ _ => trivial)) h)
  | cons x l ih =>
    intro lock buf s h
    have ih := ih (fun r hr => hl r (by simp [hr]))
    obtain ⟨r, w⟩ := x
    unfold removeLoose
    split
    · rename_i hw
      subst hw
      have hmem := hl (r, true) (by simp)
      have hn : RefName r.name := hL _ hmem rfl
      refine Ok.bind (hclean lock s _ ?_ h)
      intro s1 h1
      refine Ok.bind (fbOpen_ok hst hn.lock (After.lockStep C r.name) o _ ?_ ?_ h1)
      · intro e f s2 he h2
        simp only
        split
        · exact ih none buf h2
        · exact Ok.retI _ h2 (J0.stable hst) (fun _ _ => trivial)
      · intro f i c s2 hf _ _ _ h2
        simp only
        rw [if_neg (by decide), if_neg (by decide)]
        refine Ok.bind (removeOne_ok hrd ha ht hC hmem hn buf _ ?_ h2)
        rintro b s3 ⟨c', h3⟩
        exact ih (some f) b ⟨r.name, i, _, c', hn.lock, hf.path, h3⟩
    · exact ih lock buf h

/-! ## Loading the loose references -/

/-- While the packer collects: the packed file has not changed, and for names without a loose file the cache agrees with it. -/
structure Load (size : Nat) (o : Option Bytes) (C : List Ent) (s : FS) : Prop where
  packed : s.content packedRefs = o
  agree : ∀ n, RefName n → s.content n = none → cacheVal C n = packedVal size o n

theorem Load.stable (ha : Alone tasks p) (o : Option Bytes) (C : List Ent) : Stable (Chg size tasks) p (Load size o C) := by
  rintro a b _ h ⟨q, hq, hb, hc⟩
  exact ⟨by rw [hc.packed (ha q hq)]; exact h.packed, fun n hn h0 => h.agree n hn (hc.keep (ha q hq) n hn.lock h0)⟩

theorem Load.lockStep (o : Option Bytes) (C : List Ent) (t : Path) : LockStep (Chg size tasks) p (Load size o C) t :=
  lockStep_of fun s s' _ h hb hd _ => ⟨by rw [content_lockStep hb hd packed_not_lock]; exact h.packed,
    fun n hn h0 => h.agree n hn (by rw [← content_lockStep hb hd hn.lock]; exact h0)⟩

/-- reading a file without its lock: if something is read, the file is there from then on -/
theorem readBuffer_unlocked (ha : Alone tasks p) {o : Option Bytes} {C : List Ent} {n : Path} (hn : RefName n)
    (post : Res Bytes → FS → Prop) (hpost : ∀ r s, (∀ b, r = .ok b → s.content n ≠ none) → J0 (Load size o C) s → post r s)
    {s : FS} (h : J0 (Load size o C) s) : OkP (Chg size tasks) rd p post (readBuffer n) s := by
  have hst := Load.stable (size := size) ha o C
  have hq := (Load.lockStep (size := size) (tasks := tasks) (p := p) o C n).quiet
  have hS := J0.stable hst
  have hret : ∀ e s, J0 (Load size o C) s → OkP (Chg size tasks) rd p post (pure (.err e)) s :=
    fun e s h => Ok.retI _ h hS (fun s h => hpost _ s (fun b hb => by cases hb) h)
  unfold readBuffer
  refine Ok.cmd _ h hS ?_
  intro s1 h1 r s2 he
  have he : xStat rd n s1 r s2 := he
  obtain ⟨rfl, he⟩ := he
  refine ⟨quiet_same hq h1.1 h1.2, ?_⟩
  cases r with
  | enoent => exact hret _ _ h1
  | fail => exact hret _ _ h1
  | size k =>
    refine Ok.cmd _ h1 hS ?_
    intro s3 h3 r s4 he
    have he : xReadN rd n k s3 r s4 := he
    obtain ⟨rfl, he⟩ := he
    refine ⟨quiet_same hq h3.1 h3.2, ?_⟩
    cases r with
    | enoent => exact hret _ _ h3
    | fail => exact hret _ _ h3
    | data d =>
      obtain ⟨b, hb, _, _⟩ := he
      have h4 : J0 (Load size o C) s4 ∧ s4.content n ≠ none := ⟨h3, by rw [hb]; simp⟩
      refine Ok.retI (fun s => J0 (Load size o C) s ∧ s.content n ≠ none) h4 ?_ (fun s h => hpost _ s (fun _ _ => h.2) h.1)
      rintro a b ⟨h1, h2⟩ hr
      refine ⟨hS a b h1 hr, ?_⟩
      obtain ⟨q, hq, _, hc⟩ := hr
      exact fun h0 => h2 (hc.keep (ha q hq) n hn.lock h0)

theorem loadLoose_ok (ha : Alone tasks p) {o : Option Bytes} (names : List Path) (hN : ∀ n ∈ names, isLockName n = false → RefName n) :
    ∀ (C : List Ent) (_ : CacheOk size C) (_ : ∀ r ∈ C, r.2 = true → RefName r.1.name) (post : Res (List Ent) → FS → Prop)
    (_ : ∀ C s, CacheOk size C → (∀ r ∈ C, r.2 = true → RefName r.1.name) → J0 (Load size o C) s → post (.ok C) s)
    (_ : ∀ r s, (∀ C, r ≠ .ok C) → post r s) {s : FS} (_ : J0 (Load size o C) s),
    OkP (Chg size tasks) rd p post (loadLoose size names C) s := by
  induction names with
  | nil =>
    intro C hC hL post hok hbad s h
    unfold loadLoose
    exact Ok.retI _ h (J0.stable (Load.stable ha o C)) (fun s h => hok C s hC hL h)
  | cons n ns ih =>
    intro C hC hL post hok hbad s h
    have ih := ih (fun m hm => hN m (by simp [hm]))
    have hret : ∀ r (s : FS), (∀ C, r ≠ .ok C) → OkP (Chg size tasks) rd p post (pure r) s :=
      fun r s hr => Ok.retI (fun _ => True) trivial (fun _ _ _ _ => trivial) (fun s _ => hbad r s hr)
    unfold loadLoose
    split
    · exact ih C hC hL post hok hbad h
    · rename_i hnl
      have hn : RefName n := hN n (by simp) (by simpa using hnl)
      refine Ok.bind (readBuffer_unlocked ha hn _ ?_ h)
      intro r s1 hr h1
      cases r with
      | err e => exact ih C hC hL post hok hbad h1
      | ub => exact ih C hC hL post hok hbad h1
      | ok b =>
        have hne := hr b rfl
        simp only
        cases hadd : addLoose size C n b with
        | err e => exact hret _ _ (fun C hh => by cases hh)
        | ub => exact hret _ _ (fun C hh => by cases hh)
        | ok C' =>
          simp only
          unfold addLoose at hadd
          split at hadd
          · cases hadd; exact ih C hC hL post hok hbad h1
          · split at hadd
            · rename_i id hid
              cases hadd
              obtain ⟨h2, h3⟩ := upsertLoose_ok hC n id hn (looseParseOid_length hid)
              refine ih _ h2 ?_ post hok hbad ⟨h1.1, h1.2.packed, ?_⟩
              · intro r hr hw
                rcases upsertLoose_mem r hr with rfl | h | h
                · exact hn
                · exact hL r h.1 hw
                · exact hL r h hw
              · intro m hm h0
                have hmn : m ≠ n := fun e => hne (e ▸ h0)
                rw [h3 m hmn]; exact h1.2.agree m hm h0
            · cases hadd
            · cases hadd

/-- a packer keeps the guarantee: it changes no reference -/
theorem packer_ok (hs : 0 < size) (hrd : rd = false) (ha : Alone tasks p) {j : PackJob} (ht : tasks p = .pack j) (hv : (tasks p).Valid size)
    {o : Option Bytes} (ho : o = none ∨ ∃ b, o = some b ∧ PackedFile size b) {s : FS} (hw : WF s) (hc : s.content packedRefs = o) :
    OkP (Chg size tasks) rd p (fun _ _ => True) (j.run size) s := by
  rw [ht] at hv
  obtain ⟨hN, hpeel, hnb, hap⟩ := hv
  have htriv : ∀ (r : Int) (s : FS), OkP (Chg size tasks) rd p (fun _ _ => True) (pure r) s :=
    fun r s => Ok.retI (fun _ => True) trivial (fun _ _ _ _ => trivial) (fun s _ => trivial)
  unfold PackJob.run
  let J : FS → Prop := fun s => s.content packedRefs = o
  have hst : Stable (Chg size tasks) p J := by
    rintro a b _ h ⟨q, hq, hb, hc⟩
    show b.content packedRefs = o
    rw [hc.packed (ha q hq)]; exact h
  have hq : Quiet (Chg size tasks) p J := quiet_of fun s s' _ h hb hd _ => by
    show s'.content packedRefs = o
    rw [hb.content_same packed_not_lock (by rw [hd])]; exact h
  refine Ok.bind (reload_prog hs hst hq (fun _ h => h) ho _ ?_ (fun s h => htriv _ _) ⟨hw, hc⟩)
  intro C s1 hC hfl hCv h1
  simp only
  have hL : ∀ r ∈ C, r.2 = true → RefName r.1.name := fun r hr e => by rw [hfl r hr] at e; cases e
  refine Ok.bind (loadLoose_ok (o := o) ha j.names hN C hC hL _ ?_ ?_ ⟨h1.1, h1.2, fun n _ _ => (hCv n).symm⟩)
  · intro C s2 hC hL h2
    refine packedWrite_ok (J' := After size C) hs (Load.stable ha o C) (Load.lockStep o C packedRefs) (After.stable ha C) (After.lockStep C packedRefs).quiet
      hnb hap hC hpeel ?_ _ (fun _ _ _ _ => trivial) ?_ h2
    · intro s i b hw hj hh hd hbv hbs
      have hrw : (tasks p).rewrites := by rw [ht]; trivial
      have hmv := content_moved (p := p) (t := packedRefs) (i := i) (s := s) packed_not_lock
      have hpk : (moved p packedRefs i s).content packedRefs = some b := by rw [hmv _ packed_not_lock, if_pos rfl, hd]
      refine ⟨⟨?_, fun h => absurd hrw h, fun h => absurd hrw h, .inr ⟨_, rfl, by rw [ht]; rfl⟩,
          fun _ n hn => .inl (by rw [hmv _ hn.lock, if_neg hn.packed]), ?_⟩, ?_⟩
      · intro n hn
        left
        rw [val_eq, val_eq, hmv _ hn.lock, if_neg hn.packed, hpk, hj.packed]
        cases hcn : s.content n with
        | some x => rfl
        | none => simp only; rw [hbv, hj.agree n hn hcn]
      · intro j' hj'; rw [ht] at hj'; cases hj'
      · intro n; rw [hpk]; exact hbv n
    · intro s h
      exact removeLoose_ok hrd ha ht hC hL j.opts (sortCache C) (fun r hr => (sortCache_perm C).mem_iff.mp hr) none [] h
  · intro r s2 hr
    cases r with
    | ok C => exact absurd rfl (hr C)
    | err e => exact htriv _ _
    | ub => exact htriv _ _

/-! ## Deleting -/

/-- the deleter holds the lock of its reference, whose loose file is `c`; the packed file is `o` -/
structure Del (p : Pid) (n : Path) (i : Ino) (c o : Option Bytes) (s : FS) : Prop where
  hold : Hold p n i s
  content : s.content n = c
  packed : s.content packedRefs = o

/-- the packed file has no record of `n` -/
structure Del2 (size : Nat) (p : Pid) (n : Path) (i : Ino) (c : Option Bytes) (s : FS) : Prop where
  hold : Hold p n i s
  content : s.content n = c
  packed : packedVal size (s.content packedRefs) n = .err ENOTFOUND

theorem Del.stable (ha : Alone tasks p) {n : Path} (hn : ¬ IsLock n) {i : Ino} {c o : Option Bytes} : Stable (Chg size tasks) p (Del p n i c o) := by
  rintro a b hw h ⟨q, hq, hb, hc⟩
  exact ⟨hb.hold (Ne.symm hq) hw h.hold, by rw [hb.content_held (Ne.symm hq) hn h.hold]; exact h.content, by rw [hc.packed (ha q hq)]; exact h.packed⟩

theorem Del2.stable (ha : Alone tasks p) {n : Path} (hn : ¬ IsLock n) {i : Ino} {c : Option Bytes} : Stable (Chg size tasks) p (Del2 size p n i c) := by
  rintro a b hw h ⟨q, hq, hb, hc⟩
  exact ⟨hb.hold (Ne.symm hq) hw h.hold, by rw [hb.content_held (Ne.symm hq) hn h.hold]; exact h.content, by rw [hc.packed (ha q hq)]; exact h.packed⟩

theorem hold_lockStep {n t : Path} (hne : n ≠ t) {i : Ino} {s s' : FS} (hw : WF s) (h : Hold p n i s) (hb : Base p s s')
    (hd : ∀ x, x ≠ lockPath t → s'.dir x = s.dir x) : Hold p n i s' :=
  ⟨by rw [hd _ (fun e => hne (lockPath_inj e))]; exact h.1, by rw [hb.owner_old i (hw.bound _ _ h.1)]; exact h.2⟩

theorem Del.lockStep {n : Path} (hn : RefName n) {i : Ino} {c o : Option Bytes} : LockStep (Chg size tasks) p (Del p n i c o) packedRefs :=
  lockStep_of fun s s' hw h hb hd _ => ⟨hold_lockStep hn.packed hw h.hold hb hd, by rw [content_lockStep hb hd hn.lock]; exact h.content,
    by rw [content_lockStep hb hd packed_not_lock]; exact h.packed⟩

theorem Del2.quiet {n : Path} (hn : RefName n) {i : Ino} {c : Option Bytes} : Quiet (Chg size tasks) p (Del2 size p n i c) :=
  quiet_of fun s s' hw h hb hd _ => ⟨⟨by rw [hd]; exact h.hold.1, by rw [hb.owner_old i (hw.bound _ _ h.hold.1)]; exact h.hold.2⟩,
    by rw [hb.content_same hn.lock (by rw [hd])]; exact h.content, by rw [hb.content_same packed_not_lock (by rw [hd])]; exact h.packed⟩

theorem removeLoose_none (o : Opts) (l : List Ent) (h : ∀ r ∈ l, r.2 = false) (buf : Bytes) : removeLoose size o l none buf = pure 0 := by
  induction l with
  | nil => rfl
  | cons x l ih =>
    obtain ⟨r, w⟩ := x
    have : w = false := h (r, w) (by simp)
    subst this
    unfold removeLoose
    exact ih (fun r hr => h r (by simp [hr]))

/-- a deleter has recorded, when it returns success, that the reference was gone -/
def PostD (p : Pid) (n : Path) (r : Int) (s : FS) : Prop := r = 0 → .gone n ∈ ev p s

theorem packedDelete_ok (hs : 0 < size) (ha : Alone tasks p) {j : DeleteJob} (ht : tasks p = .delete j) (hv : (tasks p).Valid size)
    {o : Option Bytes} (ho : o = none ∨ ∃ b, o = some b ∧ PackedFile size b) {i : Ino} {c : Option Bytes}
    (hm : c = none → Matches size j.oldId j.oldTarget (packedVal size o j.name)) (post : Int → FS → Prop)
    (herr : ∀ e s, e < 0 → J0 (Del p j.name i c o) s → post e s) (hok : ∀ s, J0 (Del2 size p j.name i c) s → post 0 s)
    {s : FS} (h : J0 (Del p j.name i c o) s) : OkP (Chg size tasks) rd p post (packedDelete size j) s := by
  rw [ht] at hv
  obtain ⟨hn, hpeel, hnb, hap⟩ := hv
  have hst := Del.stable (size := size) ha hn.lock (i := i) (c := c) (o := o)
  have hl := Del.lockStep (size := size) (tasks := tasks) (p := p) hn (i := i) (c := c) (o := o)
  have hst2 := Del2.stable (size := size) ha hn.lock (i := i) (c := c)
  unfold packedDelete
  refine Ok.bind (reload_prog hs hst hl.quiet (fun _ h => h.packed) ho _ ?_ ?_ h)
  · intro C s1 hC hfl hCv h1
    simp only
    split
    · obtain ⟨hF, hFn, hFo⟩ := filter_ok hC j.name
      refine packedWrite_ok (J' := Del2 size p j.name i c) hs hst hl hst2 (Del2.quiet hn) hnb hap hF hpeel ?_ _ herr ?_ h1
      · intro s k b hw hj hh hd hbv hbs
        have hrw : (tasks p).rewrites := by rw [ht]; trivial
        have hmv := content_moved (p := p) (t := packedRefs) (i := k) (s := s) packed_not_lock
        have hpk : (moved p packedRefs k s).content packedRefs = some b := by rw [hmv _ packed_not_lock, if_pos rfl, hd]
        have hgone : packedVal size (some b) j.name = .err ENOTFOUND := by rw [hbv, hFn]
        refine ⟨⟨?_, fun h => absurd hrw h, fun h => absurd hrw h, .inr ⟨_, rfl, by rw [ht]; rfl⟩,
          fun _ n hn => .inl (by rw [hmv _ hn.lock, if_neg hn.packed]), ?_⟩, ?_⟩
        · intro n hn'
          rw [val_eq, val_eq, hmv _ hn'.lock, if_neg hn'.packed, hpk, hj.packed]
          cases hcn : s.content n with
          | some x => exact .inl rfl
          | none =>
            simp only
            by_cases hne : n = j.name
            · subst hne
              right
              refine ⟨⟨i, hj.hold⟩, ?_⟩
              rw [ht]
              refine ⟨rfl, hm ?_, hgone⟩
              rw [← hj.content]; exact hcn
            · left
              rw [hbv, hFo n hne, hCv]
        · intro j' hj'; rw [ht] at hj'; cases hj'
        · refine ⟨⟨?_, hj.hold.2⟩, ?_, ?_⟩
          · show upd (upd s.dir _ none) _ _ (lockPath j.name) = _
            rw [upd_ne _ _ (fun e => packed_not_lock ⟨_, e.symm⟩), upd_ne _ _ (fun e => hn.packed (lockPath_inj e))]
            exact hj.hold.1
          · rw [hmv _ hn.lock, if_neg hn.packed]; exact hj.content
          · rw [hpk]; exact hgone
      · intro s h
        rw [removeLoose_none]
        · exact Ok.retI _ h (J0.stable hst2) hok
        · intro r hr
          exact hfl r (List.mem_filter.mp ((sortCache_perm _).mem_iff.mp hr)).1
    · rename_i hany
      refine Ok.retI _ h1 (J0.stable hst) (fun s h => hok s ⟨h.1, h.2.hold, h.2.content, ?_⟩)
      rw [h.2.packed, hCv]
      refine cacheVal_none ?_
      intro r hr e
      exact hany (List.any_eq_true.mpr ⟨r, hr, by simpa using e⟩)
  · intro s1 h1
    exact Ok.retI _ h1 (J0.stable hst) (fun s h => herr _ s (by decide) h)

theorem bail_any {n : Path} (hn : ¬ IsLock n) (f : FB) (hf : f.path = n) (e : Int) (post : Int → FS → Prop)
    (hpost : ∀ s, post e s) {i : Ino} {s : FS} (hw : WF s) (h : Hold p n i s) :
    OkP (Chg size tasks) rd p post (bail f e) s := by
  unfold bail
  have hst : Stable (Chg size tasks) p (fun _ => True) := fun _ _ _ _ _ => trivial
  refine Ok.bind (cleanup_lock hst hn (lockStep_of fun _ _ _ _ _ _ _ => trivial) f hf _ ?_ (i := i) (c := s.content n) ⟨s.data i, hw, trivial, h, rfl, rfl⟩)
  intro s h
  exact Ok.retI _ h (J0.stable hst) (fun s h => hpost s)

theorem deleteLoose_ok (ha : Alone tasks p) {j : DeleteJob} (ht : tasks p = .delete j) (hn : RefName j.name) {i : Ino} {c : Option Bytes}
    (hm : ∀ b, c = some b → Matches size j.oldId j.oldTarget (looseParse size b)) (f : FB) (hf : f.path = j.name) {s : FS}
    (h : J0 (Del2 size p j.name i c) s) : OkP (Chg size tasks) rd p (PostD p j.name) (deleteLoose j f) s := by
  have hst2 := fun c => Del2.stable (size := size) ha hn.lock (i := i) (c := c)
  have hrw : (tasks p).rewrites := by rw [ht]; trivial
  have hend : ∀ s, J0 (Del2 size p j.name i none) s → OkP (Chg size tasks) rd p (PostD p j.name) (do sEvent (.gone j.name); bail f 0) s := by
    intro s h
    refine Ok.cmd _ h (J0.stable (hst2 none)) ?_
    intro s1 h1 u s2 he
    have he : s2 = { s1 with log := s1.log ++ [(p, .gone j.name)] } := he
    have hbs := Base.event p (.gone j.name) s1
    rw [← he] at hbs
    refine ⟨⟨hbs, Chg.inert hbs (fun x _ => by rw [he]) (.inr ⟨.gone j.name, by rw [he], ?_⟩)⟩, ?_⟩
    · rw [ht]
      refine ⟨rfl, ?_⟩
      rw [val_eq, h1.2.content]; exact h1.2.packed
    · have hev : .gone j.name ∈ ev p s2 := by rw [he, ev_event]; simp
      unfold bail
      have hst : Stable (Chg size tasks) p (fun s => .gone j.name ∈ ev p s) := by
        rintro a b _ h ⟨q, hq, hb, _⟩
        show _ ∈ ev p b
        rw [ev_other (Ne.symm hq) a b hb]; exact h
      refine Ok.bind (cleanup_lock hst hn.lock (lockStep_of fun s s' _ h _ _ hl => by show _ ∈ ev p s'; rw [ev_log hl]; exact h) f hf _ ?_ (i := i)
        (c := s2.content j.name) ⟨s2.data i, hbs.wf h1.1, hev, by rw [he]; exact h1.2.hold, rfl, rfl⟩)
      intro s h
      exact Ok.retI _ h (J0.stable hst) (fun s h _ => h.2)
  unfold deleteLoose
  refine Ok.cmd _ h (J0.stable (hst2 c)) ?_
  intro s1 h1 u s2 he
  have he : xUnlink j.name s1 u s2 := he
  cases u with
  | fail =>
    have he : s2 = s1 := he
    subst he
    refine ⟨quiet_same (Del2.quiet hn) h1.1 h1.2, ?_⟩
    exact bail_any hn.lock f hf _ _ (fun s e => by cases e) h1.1 h1.2.hold
  | enoent =>
    obtain ⟨h0, he⟩ := he
    subst he
    have hc : c = none := by rw [← h1.2.content]; unfold FS.content; rw [h0]; rfl
    subst hc
    exact ⟨quiet_same (Del2.quiet hn) h1.1 h1.2, hend _ h1⟩
  | ok =>
    obtain ⟨h0, he⟩ := he
    subst he
    obtain ⟨b, hb⟩ : ∃ b, c = some b := by
      rw [← h1.2.content]; unfold FS.content
      cases hd : s1.dir j.name with
      | none => exact absurd hd h0
      | some k => exact ⟨_, rfl⟩
    have hbs := Base.remove p j.name hn.lock i s1 h1.1 h1.2.hold
    have hpk : ({ s1 with dir := upd s1.dir j.name none } : FS).content packedRefs = s1.content packedRefs :=
      content_unlinked (fun e => hn.packed e.symm)
    refine ⟨⟨hbs, ⟨?_, fun h => absurd hrw h, fun h => absurd hrw h, .inl rfl, fun _ n _ => unlinked_shrink n, ?_⟩⟩, ?_⟩
    · intro n _
      by_cases hne : n = j.name
      · subst hne
        right
        refine ⟨⟨i, h1.2.hold⟩, ?_⟩
        rw [ht]
        refine ⟨rfl, ?_, ?_⟩
        · rw [val_eq, h1.2.content, hb]; exact hm b hb
        · rw [val_eq, content_unlinked_same, hpk]; exact h1.2.packed
      · left; exact val_same (content_unlinked hne) hpk
    · intro j' hj'; rw [ht] at hj'; cases hj'
    · refine hend _ ⟨hbs.wf h1.1, ⟨?_, h1.2.hold.2⟩, content_unlinked_same, by rw [hpk]; exact h1.2.packed⟩
      simp only
      rw [upd_ne _ _ (fun e => hn.lock ⟨_, e.symm⟩)]
      exact h1.2.hold.1

/-- a deleter keeps the guarantee -/
theorem deleter_ok (hs : 0 < size) (ha : Alone tasks p) {j : DeleteJob} (ht : tasks p = .delete j) (hv : (tasks p).Valid size)
    {o : Option Bytes} (ho : o = none ∨ ∃ b, o = some b ∧ PackedFile size b) {s : FS} (hw : WF s) (hc : s.content packedRefs = o) :
    OkP (Chg size tasks) rd p (PostD p j.name) (j.run size) s := by
  have hv' := hv
  rw [ht] at hv'
  obtain ⟨hn, hpeel, hnb, hap⟩ := hv'
  let J : FS → Prop := fun s => s.content packedRefs = o
  have hst : Stable (Chg size tasks) p J := by
    rintro a b _ h ⟨q, hq, hb, hc⟩
    show b.content packedRefs = o
    rw [hc.packed (ha q hq)]; exact h
  have hl : LockStep (Chg size tasks) p J j.name := lockStep_of fun s s' _ h hb hd _ => by
    show s'.content packedRefs = o
    rw [content_lockStep hb hd packed_not_lock]; exact h
  unfold DeleteJob.run
  refine Ok.bind (fbOpen_ok hst hn.lock hl j.opts _ ?_ ?_ ⟨hw, hc⟩)
  · intro r f s hr h
    simp only
    rw [if_pos hr]
    exact Ok.retI _ h (J0.stable hst) (fun s h e => by omega)
  · intro f i c s hf hbuf hle hopen h
    simp only
    rw [if_neg (by decide)]
    have h0 : JH (Del p j.name i c o) p j.name i (initial j.opts c) c s := h.weaken (fun hj => ⟨h.hold, h.content, hj⟩)
    generalize initial j.opts c = d at h0
    have hval : ∀ s, Del p j.name i c o s → val size s j.name = (match c with | some b => looseParse size b | none => packedVal size o j.name) := by
      intro s h
      rw [val_eq, h.content, h.packed]
      cases c <;> rfl
    have hb : ∀ (e : Int) (s : FS), e ≠ 0 → JH (Del p j.name i c o) p j.name i d c s →
        OkP (Chg size tasks) rd p (PostD p j.name) (bail f e) s :=
      fun e s he h => bail_any hn.lock f hf.path e _ (fun s e' => absurd e' he) h.wf h.hold
    refine Ok.bind (cmpOldRef_ok (Del.stable ha hn.lock) (Del.lockStep hn).quiet hn.lock (fun s h _ => hval s h) j.oldId j.oldTarget _ ?_ h0)
    intro r s1 hr1 hr2 hneg h1
    cases r with
    | ub => exact hb _ _ (by decide) h1
    | err e => exact hb _ _ (by have := hneg e rfl; omega) h1
    | ok b =>
      cases b with
      | false => exact hb _ _ (by decide) h1
      | true =>
        have hm := hr1 rfl
        simp only
        unfold deleteBoth
        refine Ok.bind (packedDelete_ok hs ha ht hv ho (i := i) (c := c) ?_ _ ?_ ?_ ⟨h1.wf, h1.j⟩)
        · rintro rfl; exact hm
        · intro e s he h
          rw [if_pos he]
          exact bail_any hn.lock f hf.path e _ (fun s e' => by omega) h.1 h.2.hold
        · intro s h
          rw [if_neg (by decide)]
          refine deleteLoose_ok ha ht hn ?_ f hf.path h
          rintro b rfl; exact hm

end Verif.RefDb
