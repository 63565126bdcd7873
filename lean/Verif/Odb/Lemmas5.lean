import Verif.Odb.Lemmas4
/-! # `git_odb_write` -/
namespace Verif.Odb
open Spec
open PackIdx.Spec (SamePrefix Padded)

variable {σ α : Type} {ops : Ops σ} {Good : σ → Prop} {sees after : σ → Objs} {Valid : Bytes → Obj → Prop} {osz : Nat} {cfg : Cfg} {P : Obj → Prop}

/-- what writing may do to a backend, as far as all that it has is concerned -/
def Added (after : σ → Objs) (id : Bytes) (o : Obj) (s t : Slot σ) : Prop :=
  t.alternate = s.alternate ∧ (after t.st = after s.st ∨ (s.alternate = false ∧ after t.st = With (after s.st) id o))

theorem added_wrote {id : Bytes} {o : Obj} {x y : List (Slot σ)} (h : List.Forall₂ (Wrote ops Good sees after id o) x y) : List.Forall₂ (Added after id o) x y :=
  h.imp fun _ _ h => ⟨h.alt, h.objs.imp (fun h => h.2) fun h => ⟨h.1, h.2.2⟩⟩

theorem added_later {id : Bytes} {o : Obj} {x y : List (Slot σ)} (h : List.Forall₂ (Later ops Good sees after) x y) : List.Forall₂ (Added after id o) x y :=
  h.imp fun _ _ h => ⟨h.alt, .inl h.after⟩

theorem later_added {id : Bytes} {o : Obj} {x y z : List (Slot σ)} (h : List.Forall₂ (Later ops Good sees after) x y) (k : List.Forall₂ (Added after id o) y z) :
    List.Forall₂ (Added after id o) x z :=
  forall₂_trans (fun a b c h k => ⟨k.1.trans h.alt, k.2.imp (fun k => k.trans h.after) fun k => ⟨by rw [← h.alt]; exact k.1, by rw [k.2, h.after]⟩⟩) h k

theorem avail_added {db db' : Db σ} {id : Bytes} {o : Obj} (W : World cfg P) (S : Sound cfg P Good after db) (hp : P o) (hid : cfg.idOf o = id)
    (h : List.Forall₂ (Added after id o) db.slots db'.slots) (hm : ∃ t ∈ db'.slots, after t.st id = some o) (i : Bytes) (x : Obj) :
    Avail cfg after db' i x ↔ Avail cfg after db i x ∨ (i = id ∧ x = o) := by
  constructor
  · rintro (⟨t, ht, k⟩ | k)
    · obtain ⟨s, hs, _, a | ⟨_, a⟩⟩ := forall₂_mem h t ht
      · exact .inl (.inl ⟨s, hs, by rw [← a]; exact k⟩)
      · rw [a] at k
        unfold With at k
        split at k
        · rename_i e
          injection k with k
          exact .inr ⟨e, k.symm⟩
        · exact .inl (.inl ⟨s, hs, k⟩)
    · exact .inl (.inr k)
  · rintro ((⟨s, hs, k⟩ | k) | ⟨rfl, rfl⟩)
    · obtain ⟨t, ht, _, a | ⟨_, a⟩⟩ := forall₂_mem' h s hs
      · exact .inl ⟨t, ht, by rw [a]; exact k⟩
      · refine .inl ⟨t, ht, ?_⟩
        rw [a]
        unfold With
        split
        · rename_i e
          have := S.objs s hs _ _ k
          rw [W.inj x o this.1 hp (by rw [this.2, e, hid])]
        · exact k
    · exact .inr k
    · exact .inl hm

theorem sound_wrote {db db' : Db σ} {id : Bytes} {o : Obj} (W : World cfg P) (S : Sound cfg P Good after db) (hp : P o) (hid : cfg.idOf o = id)
    (h : List.Forall₂ (Wrote ops Good sees after id o) db.slots db'.slots) (hm : ∃ t ∈ db'.slots, after t.st id = some o) (hc : db'.cache = db.cache) :
    Sound cfg P Good after db' := by
  refine ⟨fun t ht => ?_, fun t ht i x k => ?_, fun x hx => ?_⟩
  · obtain ⟨s, hs, l⟩ := forall₂_mem h t ht
    exact l.good
  · have := (avail_added W S hp hid (added_wrote h) hm i x).mp (.inl ⟨t, ht, k⟩)
    rcases this with a | ⟨rfl, rfl⟩
    · exact avail_P W S a
    · exact ⟨hp, hid⟩
  · rw [hc] at hx
    exact (avail_added W S hp hid (added_wrote h) hm _ _).mpr (.inl (S.cache x hx))

theorem write_spec (H : Honest ops cfg.osz Good sees after Valid) (W : World cfg P) (hv : ∀ o, P o → Valid (cfg.idOf o) o) {db : Db σ} (S : Sound cfg P Good after db) {o : Obj} (hp : P o) :
    Sound cfg P Good after (write cfg ops db o).1 ∧ (write cfg ops db o).1.cache = db.cache ∧ List.Forall₂ (Added after (cfg.idOf o) o) db.slots (write cfg ops db o).1.slots ∧
    (((write cfg ops db o).2 = .ok (cfg.idOf o) ∧ Stored after (write cfg ops db o).1 (cfg.idOf o) ∧
        ∀ i x, Avail cfg after (write cfg ops db o).1 i x ↔ Avail cfg after db i x ∨ (i = cfg.idOf o ∧ x = o)) ∨
      (∃ e, e < 0 ∧ (write cfg ops db o).2 = .err e ∧ List.Forall₂ (Later ops Good sees after) db.slots (write cfg ops db o).1.slots ∧
        (∀ s ∈ db.slots, (∀ t, Good t → ops.canRefresh t = ops.canRefresh s.st → ∃ f, ops.write t = some f ∧ ∀ id o, Valid id o → (f id o).2 = .ok ()) → s.alternate = true))) := by
  have hlen := W.len o hp
  unfold write
  by_cases hz : isZero (cfg.idOf o) = true
  · exfalso
    obtain ⟨c, hc, hn⟩ := W.nonzero o hp
    unfold isZero at hz
    rw [List.all_eq_true] at hz
    exact hn (by simpa using hz c hc)
  · rw [if_neg hz]
    obtain ⟨l, c, hf⟩ := freshen_spec H S.good hlen
    generalize freshen ops db (cfg.idOf o) = r at l c hf ⊢
    obtain ⟨db1, r⟩ := r
    dsimp only at l c hf
    have S1 : Sound cfg P Good after db1 := sound_later S l (by rw [c]; exact S.cache)
    cases r with
    | true =>
      refine ⟨S1, c, added_later l, .inl ⟨rfl, (stored_later l).mpr (hf rfl), fun i x => ?_⟩⟩
      dsimp only
      rw [avail_later l]
      refine ⟨.inl, fun h => h.elim id ?_⟩
      rintro ⟨rfl, rfl⟩
      obtain ⟨s, hs, hh⟩ := hf rfl
      obtain ⟨y, hy⟩ := Option.isSome_iff_exists.mp hh
      have := S.objs s hs _ _ hy
      have e := W.inj x y hp this.1 this.2.symm
      exact .inl ⟨s, hs, by rw [hy, ← e]⟩
    | false =>
      dsimp only
      have fin : ∀ slots, List.Forall₂ (Wrote ops Good sees after (cfg.idOf o) o) db1.slots slots → (∃ t ∈ slots, after t.st (cfg.idOf o) = some o) →
          Sound cfg P Good after (⟨slots, db1.cache⟩ : Db σ) ∧ (⟨slots, db1.cache⟩ : Db σ).cache = db.cache ∧ List.Forall₂ (Added after (cfg.idOf o) o) db.slots slots ∧
          Stored after (⟨slots, db1.cache⟩ : Db σ) (cfg.idOf o) ∧
          ∀ i x, Avail cfg after (⟨slots, db1.cache⟩ : Db σ) i x ↔ Avail cfg after db i x ∨ (i = cfg.idOf o ∧ x = o) := by
        intro slots h hm
        refine ⟨sound_wrote (db' := ⟨slots, db1.cache⟩) W S1 hp rfl h hm rfl, c, later_added l (added_wrote h), ?_, fun i x => ?_⟩
        · obtain ⟨t, ht, hh⟩ := hm
          exact ⟨t, ht, by unfold Has; rw [hh]; rfl⟩
        · rw [avail_added (db' := ⟨slots, db1.cache⟩) W S1 hp rfl (added_wrote h) hm, avail_later l]
      have hw := writeLoop_spec H (hv o hp) db1.slots (-1) (by decide) (by decide) S1.good
      generalize writeLoop ops (cfg.idOf o) o db1.slots (-1) = r at hw ⊢
      obtain ⟨slots, r⟩ := r
      dsimp only at hw
      rcases hw with ⟨rfl, h1, h2⟩ | ⟨e, _, h30, rfl, h3, h5⟩
      · obtain ⟨a, b, d, e, f⟩ := fin slots h1 h2
        exact ⟨a, b, d, .inl ⟨rfl, e, f⟩⟩
      · dsimp only
        rw [if_neg (by unfold PASSTHROUGH; exact h30)]
        have S2 : Sound cfg P Good after (⟨slots, db1.cache⟩ : Db σ) := sound_later S1 (later_quiet h3) S1.cache
        have hs := streamLoop_spec H (hv o hp) slots (-1) (by decide) (by decide) S2.good
        generalize streamLoop ops (cfg.idOf o) o slots (-1) = r at hs ⊢
        obtain ⟨slots2, r⟩ := r
        dsimp only at hs
        rcases hs with ⟨rfl, h1, h2⟩ | ⟨e', h1, rfl, h2⟩
        · have h3' : List.Forall₂ (Wrote ops Good sees after (cfg.idOf o) o) db1.slots slots2 :=
            forall₂_trans (fun a b c q w => ⟨w.good, w.can.trans q.can, w.alt.trans q.alt, w.objs.imp (fun h => ⟨h.1.trans q.sees, h.2.trans q.after⟩)
              fun h => ⟨by rw [← q.alt]; exact h.1, by rw [h.2.1, q.sees], by rw [h.2.2, q.after]⟩⟩) h3 h1
          obtain ⟨a, b, d, e, f⟩ := fin slots2 h3' h2
          exact ⟨a, b, d, .inl ⟨rfl, e, f⟩⟩
        · have lq := later_trans l (later_trans (later_quiet h3) (later_quiet h2))
          refine ⟨sound_later (db' := ⟨slots2, db1.cache⟩) S lq (by intro x hx; rw [c] at hx; exact S.cache x hx), c, added_later lq, .inr ⟨e', h1, rfl, lq, ?_⟩⟩
          intro s hs hall
          obtain ⟨t, ht, a⟩ := forall₂_mem' l s hs
          cases hh : s.alternate with
          | true => rfl
          | false =>
            obtain ⟨f, hf, hok⟩ := hall t.st a.good a.can
            exact (h5 t ht (by rw [a.alt, hh]) f hf (hok _ _ (hv o hp))).elim

end Verif.Odb
