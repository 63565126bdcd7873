import Verif.PackObjects.Lemmas10
/-! # Building packs: the properties -/
namespace Verif.PackObjects
open Verif.Pack.Spec Spec

/-- the pack builder after some calls of `git_packbuilder_insert` (with an id and a name), whatever each returned [src/libgit2/pack-objects.c:206-274] -/
def session (E : Env) (calls : List (Bytes × Option Bytes)) : Builder := calls.foldl (fun b c => (insert E c.1 c.2 b).1) Builder.new

/-- the calls that returned 0: `id` was inserted -/
def Inserted (E : Env) (calls : List (Bytes × Option Bytes)) (id : Bytes) : Prop :=
  ∃ k name, calls[k]? = some (id, name) ∧ (insert E id name (session E (calls.take k))).2 = 0

/-- what holds of the builder -/
structure BOk (E : Env) (b : Builder) : Prop where
  listed : Listed E b.objs
  nodup : (b.objs.map fun o => o.id).Nodup
  len : b.objs.length ≤ b.alloc
  alloc : b.alloc < 2 ^ 32

theorem grown_gt (a : Nat) : a < grown a := by unfold grown; omega

theorem insertRead_spec {E : Env} {id : Bytes} {name : Option Bytes} {b : Builder} (H : BOk E b) (hid : ∀ o ∈ b.objs, o.id ≠ id) (ha : b.objs.length < b.alloc) :
    BOk E (insertRead E id name b).1 ∧ (insertRead E id name b).1.alloc = b.alloc ∧
    (((insertRead E id name b).2 = 0 ∧ (E.odb id).isSome = true ∧ (insertRead E id name b).1.objs.map (fun o => o.id) = b.objs.map (fun o => o.id) ++ [id]) ∨
     ((insertRead E id name b).2 = -3 ∧ E.odb id = none ∧ (insertRead E id name b).1.objs = b.objs)) := by
  unfold insertRead
  cases h : E.odb id with
  | none => exact ⟨H, rfl, .inr ⟨rfl, rfl, rfl⟩⟩
  | some x =>
    obtain ⟨t, d⟩ := x
    refine ⟨⟨?_, ?_, ?_, H.alloc⟩, rfl, .inl ⟨rfl, rfl, by simp⟩⟩
    · intro o ho
      rw [List.mem_append, List.mem_singleton] at ho
      rcases ho with ho | rfl
      · exact H.listed o ho
      · exact ⟨d, h, rfl⟩
    · simp only [List.map_append, List.map_cons, List.map_nil]
      rw [List.nodup_append]
      refine ⟨H.nodup, by simp, fun a ha' c hc => ?_⟩
      obtain ⟨o, ho, rfl⟩ := List.mem_map.mp ha'
      rw [List.mem_singleton] at hc
      subst hc
      exact hid o ho
    · show (b.objs ++ _).length ≤ b.alloc
      rw [List.length_append]
      exact ha

/-- what one call does -/
theorem insert_spec {E : Env} {id : Bytes} {name : Option Bytes} {b : Builder} (H : BOk E b) :
    BOk E (insert E id name b).1 ∧
    (((insert E id name b).2 = 0 ∧ (E.odb id).isSome = true ∧ id ∈ (insert E id name b).1.objs.map (fun o => o.id) ∧
        (∀ x, x ∈ (insert E id name b).1.objs.map (fun o => o.id) ↔ x ∈ b.objs.map (fun o => o.id) ∨ x = id)) ∨
     ((insert E id name b).2 ≠ 0 ∧ (insert E id name b).1.objs = b.objs ∧ (E.odb id = none ∨ 2 ^ 32 ≤ grown b.objs.length))) ∧
    (E.odb id = none → (insert E id name b).2 ≠ 0) := by
  unfold insert
  by_cases h1 : b.objs.any (fun o => o.id == id) = true
  · rw [if_pos h1]
    rw [List.any_eq_true] at h1
    obtain ⟨o, ho, he⟩ := h1
    have he' : o.id = id := by simpa using he
    have hm : id ∈ b.objs.map (fun o => o.id) := List.mem_map.mpr ⟨o, ho, he'⟩
    obtain ⟨d, hd, _⟩ := H.listed o ho
    rw [he'] at hd
    refine ⟨H, .inl ⟨rfl, by rw [hd]; rfl, hm, fun x => ⟨.inl, fun hx => ?_⟩⟩, fun hn => by rw [hd] at hn; cases hn⟩
    rcases hx with hx | rfl
    · exact hx
    · exact hm
  · rw [if_neg h1]
    have hid : ∀ o ∈ b.objs, o.id ≠ id := by
      intro o ho e
      exact h1 (List.any_eq_true.mpr ⟨o, ho, by simp [e]⟩)
    have fin : ∀ b' : Builder, BOk E b' → b'.objs = b.objs → b'.objs.length < b'.alloc →
        BOk E (insertRead E id name b').1 ∧
        (((insertRead E id name b').2 = 0 ∧ (E.odb id).isSome = true ∧ id ∈ (insertRead E id name b').1.objs.map (fun o => o.id) ∧
            (∀ x, x ∈ (insertRead E id name b').1.objs.map (fun o => o.id) ↔ x ∈ b.objs.map (fun o => o.id) ∨ x = id)) ∨
         ((insertRead E id name b').2 ≠ 0 ∧ (insertRead E id name b').1.objs = b.objs ∧ (E.odb id = none ∨ 2 ^ 32 ≤ grown b.objs.length))) ∧
        (E.odb id = none → (insertRead E id name b').2 ≠ 0) := by
      intro b' H' he ha
      obtain ⟨r1, r2, r3 | r3⟩ := insertRead_spec (id := id) (name := name) H' (by rw [he]; exact hid) ha
      · obtain ⟨r3, r4, r5⟩ := r3
        refine ⟨r1, .inl ⟨r3, r4, by rw [r5]; simp, fun x => by rw [r5, he, List.mem_append, List.mem_singleton]⟩, fun hn => by rw [hn] at r4; cases r4⟩
      · obtain ⟨r3, r4, r5⟩ := r3
        exact ⟨r1, .inr ⟨by rw [r3]; decide, by rw [r5, he], .inl r4⟩, fun _ => by rw [r3]; decide⟩
    split
    · rename_i hg
      split
      · rename_i hov
        have : b.alloc = b.objs.length := Nat.le_antisymm hg H.len
        exact ⟨H, .inr ⟨by show (-1 : Int) ≠ 0; decide, rfl, .inr (this ▸ hov)⟩, fun _ => by show (-1 : Int) ≠ 0; decide⟩
      · rename_i hov
        have := grown_gt b.alloc
        have := H.len
        exact fin ⟨b.objs, grown b.alloc⟩ ⟨H.listed, H.nodup, by show b.objs.length ≤ grown b.alloc; omega, by show grown b.alloc < 2 ^ 32; omega⟩ rfl
          (by show b.objs.length < grown b.alloc; omega)
    · rename_i hg
      exact fin b H rfl (by omega)

theorem session_snoc (E : Env) (calls : List (Bytes × Option Bytes)) (c : Bytes × Option Bytes) :
    session E (calls ++ [c]) = (insert E c.1 c.2 (session E calls)).1 := by
  unfold session
  rw [List.foldl_append]
  rfl

theorem session_ok (E : Env) (calls : List (Bytes × Option Bytes)) : BOk E (session E calls) ∧
    (∀ id, id ∈ (session E calls).objs.map (fun o => o.id) ↔ Inserted E calls id) ∧ (session E calls).objs.length ≤ calls.length := by
  generalize hn : calls.length = n
  induction n generalizing calls with
  | zero =>
    rw [List.length_eq_zero_iff] at hn
    subst hn
    refine ⟨⟨(fun o ho => by cases ho), List.nodup_nil, Nat.le_refl _, show 0 < 2 ^ 32 by decide⟩, fun id => ⟨(fun h => by cases h), fun h => ?_⟩, Nat.le_refl _⟩
    obtain ⟨k, name, hk, _⟩ := h
    cases hk
  | succ n ih =>
    rcases List.eq_nil_or_concat calls with rfl | ⟨pre, c, rfl⟩
    · cases hn
    · rw [List.concat_eq_append] at hn ⊢
      rw [List.length_append, List.length_singleton] at hn
      obtain ⟨H, hmem, hlen⟩ := ih pre (by omega)
      rw [session_snoc]
      obtain ⟨s1, s2, s3⟩ := insert_spec (id := c.1) (name := c.2) H
      have hins : ∀ id, Inserted E (pre ++ [c]) id ↔ Inserted E pre id ∨ (id = c.1 ∧ (insert E c.1 c.2 (session E pre)).2 = 0) := by
        intro id
        constructor
        · rintro ⟨k, name, hk, hz⟩
          by_cases hlt : k < pre.length
          · rw [List.getElem?_append_left hlt] at hk
            rw [List.take_append_of_le_length (by omega)] at hz
            exact .inl ⟨k, name, hk, hz⟩
          · have hke : k = pre.length := by
              have := (List.getElem?_eq_some_iff.mp hk).1
              rw [List.length_append, List.length_singleton] at this
              omega
            subst hke
            rw [List.getElem?_append_right (Nat.le_refl _), Nat.sub_self] at hk
            simp only [List.getElem?_cons_zero, Option.some.injEq] at hk
            subst hk
            rw [List.take_left'] at hz
            · exact .inr ⟨rfl, hz⟩
            · rfl
        · rintro (⟨k, name, hk, hz⟩ | ⟨rfl, hz⟩)
          · have hlt := (List.getElem?_eq_some_iff.mp hk).1
            refine ⟨k, name, by rw [List.getElem?_append_left hlt]; exact hk, ?_⟩
            rw [List.take_append_of_le_length (by omega)]
            exact hz
          · refine ⟨pre.length, c.2, ?_, ?_⟩
            · rw [List.getElem?_append_right (Nat.le_refl _), Nat.sub_self]
              rfl
            · rw [List.take_left' rfl]
              exact hz
      refine ⟨s1, fun id => ?_, ?_⟩
      · rw [hins id]
        rcases s2 with ⟨t1, t2, t3, t4⟩ | ⟨t1, t2, t3⟩
        · rw [t4 id, hmem id]
          simp [t1]
        · rw [t2, hmem id]
          simp [t1]
      · -- at most one more
        have hle : (insert E c.1 c.2 (session E pre)).1.objs.length ≤ (session E pre).objs.length + 1 := by
          have hir : ∀ b : Builder, (insertRead E c.1 c.2 b).1.objs.length ≤ b.objs.length + 1 := by
            intro b
            unfold insertRead
            split <;> simp
          unfold insert
          split
          · simp
          · split
            · split
              · simp
              · exact hir _
            · exact hir _
        omega

/-- **C70.** Whatever was inserted, however the threads that search for deltas were scheduled, whichever of their results were cached and whichever threads gave up: a pack that is written holds exactly the
objects whose insertion returned 0, each once; its header counts them and its trailer is the hash of the rest; each entry denotes the contents and the type the object has in the database, is
at most fifty deltas away from a whole object, and its base precedes it. -/
theorem C70_pack (E : Env) (inflate : Bytes → Option Bytes) (hz : Compresses E.deflate inflate) (hp : Plausible E.odb) (hsha : ∀ b, (E.sha b).length = 20)
    (calls : List (Bytes × Option Bytes)) (ds : Nat → DState) (hprep : Prepared E (session E calls).objs ds) (tagged : Nat → Bool) (fuel : Nat) (file : Bytes)
    (h : writePack E (session E calls).objs tagged ds fuel = .ok file) :
    ∃ ids : List Bytes, ids.Nodup ∧ (∀ id, id ∈ ids ↔ Inserted E calls id) ∧ PackOf ⟨E.odb, inflate, E.sha⟩ 50 ids file := by
  obtain ⟨H, hmem, _⟩ := session_ok E calls
  obtain ⟨rank, dep, hR⟩ := prepared_ready H.listed hprep
  exact ⟨_, H.nodup, hmem, pack_sound hz hp hsha (Nat.lt_of_le_of_lt H.len H.alloc) hR h⟩

/-- **C70**, reading it back: with an index that knows where the entries of such a pack are, `git_packfile_unpack` (C52) gives for each inserted object what the database has. -/
theorem C70_read_back (E : Env) (inflate : Bytes → Option Bytes) (hz : Compresses E.deflate inflate) (hp : Plausible E.odb) (hsha : ∀ b, (E.sha b).length = 20)
    (calls : List (Bytes × Option Bytes)) (ds : Nat → DState) (hprep : Prepared E (session E calls).objs ds) (tagged : Nat → Bool) (fuel : Nat) (file : Bytes)
    (h : writePack E (session E calls).objs tagged ds fuel = .ok file) :
    ∃ pos : Bytes → Nat, ∀ p : Pack.Pack, p.file = file → p.inflate = inflate → Pack.WinOk p → (∀ id, Inserted E calls id → p.find id = some (pos id)) →
      ∀ id, Inserted E calls id → ∃ t d, E.odb id = some (t, d) ∧
        ∃ N, ∀ fuel, N ≤ fuel → ∃ adds, Pack.unpack p (fun _ _ => none) fuel (pos id) = some (.ok ((t, d), adds)) := by
  obtain ⟨ids, hnd, hids, entries, hperm, _, hright⟩ := C70_pack E inflate hz hp hsha calls ds hprep tagged fuel file h
  have hnd' : (entries.map fun e => e.1).Nodup := hperm.nodup_iff.mpr hnd
  refine ⟨fun id => offset entries ((entries.map fun e => e.1).idxOf id), fun p hf hi hw hfind id hid => ?_⟩
  have hmem : id ∈ entries.map fun e => e.1 := hperm.mem_iff.mpr ((hids id).mpr hid)
  have hk := List.getElem?_idxOf hmem
  show ∃ t d, E.odb id = some (t, d) ∧ ∃ N, ∀ fuel, N ≤ fuel → ∃ adds, Pack.unpack p (fun _ _ => none) fuel (offset entries ((entries.map fun e => e.1).idxOf id)) = some (.ok ((t, d), adds))
  generalize (entries.map fun e => e.1).idxOf id = k at hk ⊢
  rw [List.getElem?_map] at hk
  cases he : entries[k]? with
  | none => rw [he] at hk; cases hk
  | some e =>
    rw [he] at hk
    obtain ⟨id', bs⟩ := e
    have hid' : id' = id := by simpa using hk
    subst hid'
    obtain ⟨t, d, o1, o2, _⟩ := hright k id' bs he p.find (fun j idj bj hj hje => by
      have hmj : idj ∈ entries.map fun e => e.1 := List.mem_map.mpr ⟨_, List.mem_of_getElem? hje, rfl⟩
      rw [hfind idj ((hids idj).mp (hperm.mem_iff.mp hmj))]
      have hidx : (entries.map fun e => e.1).idxOf idj = j := by
        have hlt : j < (entries.map fun e => e.1).length := by rw [List.length_map]; exact (List.getElem?_eq_some_iff.mp hje).1
        have hget : (entries.map fun e => e.1)[j] = idj := by
          have : (entries.map fun e => e.1)[j]? = some idj := by rw [List.getElem?_map, hje]; rfl
          rw [List.getElem?_eq_getElem hlt] at this
          exact Option.some.inj this
        rw [← hget]
        exact hnd'.idxOf_getElem j hlt
      show some (offset entries ((entries.map fun e => e.1).idxOf idj)) = _
      rw [hidx])
    refine ⟨t, d, o1, ?_⟩
    have hsrc : Pack.src p = ⟨file, p.find, inflate⟩ := by unfold Pack.src; rw [hf, hi]
    exact Pack.C52_complete p hw (fun _ _ => none) (fun _ _ _ h => by cases h) _ t d (by rw [hsrc]; exact o2)

/-- **C70**, inserting: as long as there were fewer than 2³¹ calls, inserting an object returns 0 exactly if the database has it. -/
theorem C70_insert (E : Env) (calls : List (Bytes × Option Bytes)) (hn : calls.length < 2 ^ 31) (id : Bytes) (name : Option Bytes) :
    (insert E id name (session E calls)).2 = 0 ↔ (E.odb id).isSome = true := by
  obtain ⟨H, _, hlen⟩ := session_ok E calls
  obtain ⟨_, s2, s3⟩ := insert_spec (id := id) (name := name) H
  rcases s2 with ⟨t1, t2, _⟩ | ⟨t1, _, t3 | t3⟩
  · exact ⟨fun _ => t2, fun _ => t1⟩
  · exact ⟨fun h => absurd h t1, fun h => by rw [t3] at h; cases h⟩
  · unfold grown at t3
    omega

/-- **C70**, a limit of the code: a builder writes once. The flags `written` stay, so a second loop over the objects writes none of them, though the header counts them all. -/
theorem C70_once (E : Env) (objs : List PObj) (fuel : Nat) (hf : 0 < fuel) (s : WState) (hw : ∀ i, i < objs.length → s.written i = true) (hr : ∀ i, s.recursing i = false) :
    ∀ l : List Nat, (∀ i ∈ l, i < objs.length) → writeLoop E objs fuel l s = .ok s := by
  intro l
  induction l with
  | nil => intro _; rfl
  | cons i l ih =>
    intro hl
    obtain ⟨f, rfl⟩ : ∃ f, fuel = f + 1 := ⟨fuel - 1, by omega⟩
    unfold writeLoop writeOne
    rw [if_neg (by rw [hr i]; simp), if_pos (hw i (hl i List.mem_cons_self))]
    exact ih fun j hj => hl j (List.mem_cons_of_mem _ hj)

/-- **C71.** Building a pack never gets stuck and never leaves the memory it may use, whatever the threads do: with `big_file_threshold` at its default of 512 MiB (or anything up to
715827860) the candidates can be sorted, and from every state the threads can reach
every thread with objects left can deltify the next one (whatever the memory limit evicts and the cache keeps), and all of them can finish. -/
theorem C71_search (E : Env) (hbig : E.bigFile ≤ 715827860) (calls : List (Bytes × Option Bytes)) :
    ∃ l, Sort.tsort (typeSizeSort (session E calls).objs) (candidates E (session E calls).objs) = .ok l ∧ l.Perm (candidates E (session E calls).objs) ∧
      ∀ s, Steps E (session E calls).objs 11 50 (startWork E (session E calls).objs 11 l) s →
        (∀ (i po : Nat) (rest : List Nat) (w : Win), s.jobs[i]? = some ⟨po :: rest, w⟩ → ∀ evicted cache, ∃ t w', findStep E (session E calls).objs 11 50 po evicted cache (s.ds po) w = .ok (t, w')) ∧
        ∃ s', Steps E (session E calls).objs 11 50 s s' ∧ ∀ j ∈ s'.jobs, j.list = [] := by
  obtain ⟨H, _, hlen⟩ := session_ok E calls
  have hl32 : (session E calls).objs.length < 2 ^ 32 := Nat.lt_of_le_of_lt H.len H.alloc
  have hc : (candidates E (session E calls).objs).length ≤ (session E calls).objs.length := by
    have := List.length_filter_le (fun i => !(decide ((objAt (session E calls).objs i).size < 50) || decide (E.bigFile < (objAt (session E calls).objs i).size)))
      (List.range (session E calls).objs.length)
    rw [List.length_range] at this
    exact this
  rcases Sort.tsort_cases (typeSizeSort_order (session E calls).objs) (candidates E (session E calls).objs) with ⟨h, _⟩ | ⟨l, hl, _⟩
  · omega
  · obtain ⟨l1, l2, l3⟩ := sorted_candidates hl
    refine ⟨l, hl, l3, fun s hs => ?_⟩
    obtain ⟨done, rank, dep, R, hI⟩ := steps_inv H.listed (by decide) hs ⟨_, _, _, _, startWork_inv (E := E) (depth := 50) (by decide) l1 l2⟩
    have hw : Within (candidates E (session E calls).objs) s := steps_within hs ⟨fun i hi => by
      rw [startWork_pending] at hi
      exact l3.mem_iff.mp hi, fun _ _ => rfl⟩
    exact ⟨fun i po rest w hj ev cache => can_take H.listed hbig (by decide) hI hw hj ev cache,
      finish_work H.listed hbig (by decide) (by decide) _ s done rank dep R rfl hI hw⟩

/-- **C71**, writing: whatever deltas the search ended with, a pack is written: following deltas always ends, a delta that was not cached is found again with the same size,
and no object is left out of the order. -/
theorem C71_write (E : Env) (hbig : E.bigFile ≤ 715827860) (inflate : Bytes → Option Bytes) (hz : Compresses E.deflate inflate) (hp : Plausible E.odb)
    (calls : List (Bytes × Option Bytes)) (ds : Nat → DState) (hprep : Prepared E (session E calls).objs ds) (tagged : Nat → Bool) :
    ∃ F, ∀ fuel, F ≤ fuel → ∃ file, writePack E (session E calls).objs tagged ds fuel = .ok file := by
  obtain ⟨H, _, _⟩ := session_ok E calls
  obtain ⟨rank, dep, hR⟩ := prepared_ready H.listed hprep
  exact writePack_total hz hp H.listed hR (fun i b hb => Nat.le_trans (prepared_small hprep i b hb) hbig) tagged

end Verif.PackObjects
