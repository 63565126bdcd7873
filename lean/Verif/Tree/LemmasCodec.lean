import Verif.Tree.Model
import Verif.Tree.Spec
import Verif.Strtol.Props
namespace Verif.Tree
open Spec Verif.Strtol.Spec

def Entry.toSpec (e : Entry) : Nat × Bytes × Bytes := (e.attr, e.name, e.oid)

theorem digit8 : ∀ d : Fin 8, digits[d.val]? = some (UInt8.ofNat (48 + d.val)) := by decide +kernel

theorem octal_spells (n : Nat) : Spells 8 (octal n) n := by
  induction n using Nat.strongRecOn with
  | _ n ih =>
    rw [octal]
    split
    · rename_i h
      have := Spells.snoc (b := 8) Spells.nil (Or.inl (digit8 ⟨n, h⟩)) h
      simpa using this
    · rename_i h
      have hm : n % 8 < 8 := Nat.mod_lt _ (by omega)
      have := Spells.snoc (ih (n / 8) (by omega)) (Or.inl (digit8 ⟨n % 8, hm⟩)) hm
      have e : n / 8 * 8 + n % 8 = n := by omega
      rw [e] at this
      exact this

theorem octal_ne_nil (n : Nat) : octal n ≠ [] := by
  rw [octal]; split <;> simp

theorem digit_of8 : ∀ d : Fin 8, (UInt8.ofNat (48 + d.val) = c!"0" → d.val = 0) := by decide +kernel

theorem octal_head (n : Nat) : (octal n).head? = some c!"0" → n = 0 ∧ octal n = b!"0" := by
  induction n using Nat.strongRecOn with
  | _ n ih =>
    intro h
    by_cases h8 : n < 8
    · rw [octal, if_pos h8] at h ⊢
      simp only [List.head?_cons, Option.some.injEq] at h
      have := digit_of8 ⟨n, h8⟩ h
      simp only at this
      subst this
      exact ⟨rfl, rfl⟩
    · rw [octal, if_neg h8] at h
      have h2 : (octal (n / 8)).head? = some c!"0" := by
        rw [List.head?_append] at h
        cases ho : (octal (n / 8)).head? with
        | none => exact absurd (List.head?_eq_none_iff.mp ho) (octal_ne_nil _)
        | some x => rw [ho] at h; simpa using h
      have := (ih (n / 8) (by omega) h2).1
      omega

theorem octal_spec (n : Nat) : Octal n (octal n) := ⟨octal_spells n, octal_ne_nil n, octal_head n⟩

theorem not_space_digit : ∀ c : UInt8, ∀ d : Fin 36, (digits[d.val]? = some c ∨ upper[d.val]? = some c) → ¬ Space c ∧ c ≠ c!" " := by
  unfold Space
  decide +kernel

theorem digit_lt36 {c : UInt8} {v : Nat} (h : Digit c v) : v < 36 := by
  rcases h with h | h <;> · have := (List.getElem?_eq_some_iff.mp h).1; simpa [digits, upper] using this

theorem digit_not_space {c : UInt8} {v : Nat} (h : Digit c v) : ¬ Space c ∧ c ≠ c!" " := not_space_digit c ⟨v, digit_lt36 h⟩ h

theorem spells_mem {b : Nat} {ds : Bytes} {n : Nat} (h : Spells b ds n) : ∀ c ∈ ds, ∃ v, Digit c v ∧ v < b := by
  induction h with
  | nil => simp
  | snoc _ hd hv ih =>
    intro c hc
    rcases List.mem_append.mp hc with hc | hc
    · exact ih c hc
    · simp at hc; subst hc; exact ⟨_, hd, hv⟩

/-- the mode parser accepts exactly the mode texts -/
theorem parseMode_ok {m : Bytes} {v : Nat} (h : ModeText m v) (rest : Bytes) :
    parseMode (m ++ (c!" " :: rest)) = .ok (v, c!" " :: rest) := by
  obtain ⟨sgn, ds, rfl, hne, hsp, hv, hs⟩ := h
  have hnum : Number (sgn ++ ds ++ (c!" " :: rest)) 8 (v : Int) (c!" " :: rest) := by
    have hpre : ∀ tl, Prefix 8 [] 8 tl := by
      intro tl
      right
      exact ⟨by simp, rfl, by simp⟩
    have hnd : ∀ c, (c!" " :: rest).head? = some c → ∀ d, Digit c d → 8 ≤ d := by
      intro c hc d hd
      simp at hc; subst hc
      exact absurd rfl (digit_not_space hd).2
    have hh : ∀ c, (sgn ++ ([] ++ (ds ++ (c!" " :: rest)))).head? = some c → ¬ Space c := by
      intro c hc
      cases sgn with
      | cons x xs =>
        have hx : x = c!"+" ∨ x = c!"-" := by
          rcases hs with h | h | ⟨h, _⟩ <;> simp at h <;> simp [h.1]
        simp at hc; subst hc
        unfold Space
        rcases hx with rfl | rfl <;> decide
      | nil =>
        cases ds with
        | nil => exact absurd rfl hne
        | cons d ds =>
          simp at hc; subst hc
          obtain ⟨v, hd, _⟩ := spells_mem hsp d (by simp)
          exact (digit_not_space hd).1
    rcases hs with rfl | rfl | ⟨rfl, rfl⟩
    · exact ⟨[], [], false, [], ds, 8, v, by simp, by simp, hh, .inr ⟨rfl, .inr rfl⟩, hpre _, by omega, hne, hsp, hnd, by simp⟩
    · exact ⟨[], b!"+", false, [], ds, 8, v, by simp, by simp, hh, .inr ⟨rfl, .inl rfl⟩, hpre _, by omega, hne, hsp, hnd, by simp⟩
    · exact ⟨[], b!"-", true, [], ds, 8, 0, by simp, by simp, hh, .inl ⟨rfl, rfl⟩, hpre _, by omega, hne, hsp, hnd, by simp⟩
  have hex := (Strtol.C46_exact32 _ _ _ _).mpr ⟨hnum, by omega, by omega⟩
  unfold parseMode
  cases hc : sgn ++ ds ++ (c!" " :: rest) with
  | nil => simp at hc
  | cons c cs =>
    have : Strtol.isSpace c = false := by
      cases hb : Strtol.isSpace c with
      | false => rfl
      | true =>
        have hsc := (Strtol.space_iff c).mp hb
        exfalso
        cases sgn with
        | cons x xs =>
          have hx : x = c!"+" ∨ x = c!"-" := by
            rcases hs with h | h | ⟨h, _⟩ <;> simp at h <;> simp [h.1]
          simp at hc
          rw [← hc.1] at hb
          rcases hx with rfl | rfl <;> exact absurd hb (by decide)
        | nil =>
          cases ds with
          | nil => exact absurd rfl hne
          | cons d ds =>
            simp at hc
            obtain ⟨v, hd, _⟩ := spells_mem hsp d (by simp)
            rw [hc.1] at hd
            exact (digit_not_space hd).1 hsc
    simp only [this]
    rw [hc] at hex
    rw [hex]
    simp only [Bool.false_eq_true, if_false]
    rw [if_neg (by omega)]
    simp

theorem parseMode_sound {buf : Bytes} {v : Nat} {rest : Bytes} (h : parseMode buf = .ok (v, rest)) :
    ∃ m, buf = m ++ rest ∧ ModeText m v := by
  unfold parseMode at h
  cases buf with
  | nil => simp at h
  | cons c cs =>
    simp only at h
    split at h
    · cases h
    · rename_i hsp
      split at h
      · cases h
      · cases h
      · rename_i mode rest' heq
        split at h
        · cases h
        · rename_i hrange
          simp only [Res.ok.injEq, Prod.mk.injEq] at h
          obtain ⟨rfl, rfl⟩ := h
          obtain ⟨⟨ws, sgn, neg, pre, ds, b, n, hs, hws, _, hsg, hpre, _, hne, hspl, _, hv⟩, _, _⟩ := (Strtol.C46_exact32 _ _ _ _).mp heq
          have hb : pre = [] ∧ b = 8 := by
            rcases hpre with ⟨_, h, _⟩ | ⟨_, h1, h2⟩
            · omega
            · exact ⟨h1, by simpa using h2⟩
          obtain ⟨rfl, rfl⟩ := hb
          have hw : ws = [] := by
            cases ws with
            | nil => rfl
            | cons w ws =>
              simp at hs
              have := hws w (by simp)
              rw [← hs.1] at this
              exact absurd ((Strtol.space_iff c).mpr this) (by simpa using hsp)
          subst hw
          refine ⟨sgn ++ ds, by simpa using hs, sgn, ds, rfl, hne, ?_⟩
          rcases hsg with ⟨rfl, rfl⟩ | ⟨rfl, rfl | rfl⟩
          · simp only [if_true] at hv
            have : n = 0 := by omega
            subst this
            have : mode = 0 := by omega
            subst this
            exact ⟨hspl, by decide, .inr (.inr ⟨rfl, rfl⟩)⟩
          · simp only [Bool.false_eq_true, if_false] at hv
            subst hv
            exact ⟨hspl, by simp; omega, .inr (.inl rfl)⟩
          · simp only [Bool.false_eq_true, if_false] at hv
            subst hv
            exact ⟨hspl, by simp; omega, .inl rfl⟩

theorem parseMode_no_ub (buf : Bytes) : parseMode buf ≠ .ub := by
  unfold parseMode
  cases buf with
  | nil => simp
  | cons c cs =>
    simp only
    split
    · simp
    · have h64 : ∀ s b, Strtol.strntol64 s b ≠ .ub := by
        intro s b
        unfold Strtol.strntol64
        simp only
        repeat' split
        all_goals simp
      have h32 : Strtol.strntol32 (c :: cs) 8 ≠ .ub := by
        unfold Strtol.strntol32
        split
        · split <;> simp
        · simp
        · rename_i h; exact absurd h (h64 _ _)
      split
      · simp
      · rename_i h; exact absurd h h32
      · split <;> simp

theorem findIdx_nul {n rest : Bytes} (h : (0 : UInt8) ∉ n) : (n ++ 0 :: rest).findIdx? (· = (0 : UInt8)) = some n.length := by
  induction n with
  | nil => simp [List.findIdx?_cons]
  | cons x xs ih =>
    simp only [List.mem_cons, not_or] at h
    have hx : ¬ x = 0 := fun e => h.1 e.symm
    simp [List.findIdx?_cons, hx, ih h.2]

theorem findIdx_nul_sound {buf : Bytes} {k : Nat} (h : buf.findIdx? (· = (0 : UInt8)) = some k) :
    k < buf.length ∧ (0 : UInt8) ∉ buf.take k ∧ buf = buf.take k ++ 0 :: buf.drop (k + 1) := by
  induction buf generalizing k with
  | nil => simp at h
  | cons x xs ih =>
    rw [List.findIdx?_cons] at h
    split at h
    · rename_i hx
      simp at h hx; subst h; subst hx
      simp
    · rename_i hx
      simp only [Option.map_eq_some_iff] at h
      obtain ⟨j, hj, rfl⟩ := h
      obtain ⟨h1, h2, h3⟩ := ih hj
      simp at hx
      refine ⟨by simp; omega, ?_, ?_⟩
      · simp only [List.take_succ_cons, List.mem_cons, not_or]
        exact ⟨fun e => hx e.symm, h2⟩
      · simp only [List.take_succ_cons, List.cons_append, List.drop_succ_cons, List.cons.injEq, true_and]
        exact h3

theorem parseRest_ok {v : Nat} {n id rest : Bytes} (hn : Name n) (hid : id.length = 20) :
    parseRest v (c!" " :: (n ++ 0 :: (id ++ rest))) = .ok (⟨v, n, id⟩, rest) := by
  obtain ⟨h1, h2, h3⟩ := hn
  have hl : n.length ≠ 0 := by simpa using h1
  unfold parseRest
  simp only [ne_eq, not_true_eq_false, if_false]
  rw [findIdx_nul h2]
  simp only
  rw [if_neg (by omega), if_neg (by simp [OID_SIZE, hid]; omega)]
  have e1 : slice (n ++ 0 :: (id ++ rest)) 0 n.length = .ok n := by
    unfold slice
    rw [if_pos (by simp)]; simp
  have e2 : slice (n ++ 0 :: (id ++ rest)) (n.length + 1) OID_SIZE = .ok id := by
    unfold slice
    rw [if_pos (by simp [OID_SIZE, hid]; omega), List.drop_append]
    simp [OID_SIZE, List.drop_eq_nil_of_le (show n.length ≤ n.length + 1 by omega), ← hid]
  rw [e1, e2]
  simp only [Res.bind_ok]
  congr 2
  rw [Nat.add_assoc, List.drop_append]
  simp [OID_SIZE, ← hid, Nat.add_comm]

theorem parseRest_sound {v : Nat} {buf : Bytes} {e : Entry} {rest : Bytes} (h : parseRest v buf = .ok (e, rest)) :
    e.attr = v ∧ Name e.name ∧ e.oid.length = 20 ∧ buf = c!" " :: (e.name ++ 0 :: (e.oid ++ rest)) := by
  unfold parseRest at h
  cases buf with
  | nil => simp at h
  | cons c buf =>
    simp only at h
    split at h
    · cases h
    · rename_i hc
      split at h
      · cases h
      · rename_i k hk
        obtain ⟨k1, k2, k3⟩ := findIdx_nul_sound hk
        split at h
        · cases h
        · rename_i hlen
          split at h
          · cases h
          · rename_i hoid
            have e1 : slice buf 0 k = .ok (buf.take k) := by
              unfold slice; rw [if_pos (by omega)]; simp
            have e2 : slice buf (k + 1) OID_SIZE = .ok ((buf.drop (k + 1)).take OID_SIZE) := by
              unfold slice; rw [if_pos (by omega)]
            rw [e1, e2] at h
            simp only [Res.bind_ok, Res.ok.injEq, Prod.mk.injEq] at h
            obtain ⟨rfl, rfl⟩ := h
            have hl : (buf.take k).length = k := by rw [List.length_take]; omega
            refine ⟨rfl, ⟨?_, k2, ?_⟩, ?_, ?_⟩
            · intro hnil
              simp only at hnil
              rw [hnil] at hl
              simp at hl
              omega
            · simp only; omega
            · simp only [List.length_take, List.length_drop, OID_SIZE] at hoid ⊢; omega
            · simp only [ne_eq, Decidable.not_not] at hc
              subst hc
              simp only [List.cons.injEq, true_and]
              rw [← List.drop_drop (i := OID_SIZE), List.take_append_drop]
              exact k3

theorem parseRest_no_ub (v : Nat) (buf : Bytes) : (∃ p, parseRest v buf = .ok p) ∨ parseRest v buf = .err EINVALID := by
  unfold parseRest
  cases buf with
  | nil => simp
  | cons c buf =>
    simp only
    split
    · simp
    · split
      · simp
      · rename_i k hk
        obtain ⟨k1, k2, k3⟩ := findIdx_nul_sound hk
        split
        · simp
        · split
          · simp
          · rename_i hlen hoid
            have e1 : slice buf 0 k = .ok (buf.take k) := by
              unfold slice; rw [if_pos (by omega)]; simp
            have e2 : slice buf (k + 1) OID_SIZE = .ok ((buf.drop (k + 1)).take OID_SIZE) := by
              unfold slice; rw [if_pos (by omega)]
            rw [e1, e2]
            simp

theorem parseEntry_cases (buf : Bytes) : (∃ p, parseEntry buf = .ok p) ∨ parseEntry buf = .err EINVALID := by
  unfold parseEntry
  cases h : parseMode buf with
  | err e => simp
  | ub => exact absurd h (parseMode_no_ub buf)
  | ok p => exact parseRest_no_ub _ _

theorem parseEntry_sound {buf : Bytes} {e : Entry} {rest : Bytes} (h : parseEntry buf = .ok (e, rest)) :
    ∃ m, ModeText m e.attr ∧ Name e.name ∧ e.oid.length = 20 ∧ buf = m ++ b!" " ++ e.name ++ [0] ++ e.oid ++ rest := by
  unfold parseEntry at h
  split at h
  · cases h
  · cases h
  · rename_i attr b hm
    obtain ⟨m, rfl, hmt⟩ := parseMode_sound hm
    obtain ⟨h1, h2, h3, rfl⟩ := parseRest_sound h
    subst h1
    exact ⟨m, hmt, h2, h3, by simp⟩

theorem parseEntry_ok {m n id rest : Bytes} {v : Nat} (hm : ModeText m v) (hn : Name n) (hid : id.length = 20) :
    parseEntry (m ++ b!" " ++ n ++ [0] ++ id ++ rest) = .ok (⟨v, n, id⟩, rest) := by
  unfold parseEntry
  have : m ++ b!" " ++ n ++ [0] ++ id ++ rest = m ++ (c!" " :: (n ++ 0 :: (id ++ rest))) := by simp
  rw [this, parseMode_ok hm]
  exact parseRest_ok hn hid

theorem parseLoop_cases (fuel : Nat) : ∀ buf, buf.length < fuel →
    (∃ es, parseLoop fuel buf = .ok es ∧ TreeText buf (es.map Entry.toSpec)) ∨
    (parseLoop fuel buf = .err EINVALID ∧ ∀ es, ¬ TreeText buf es) := by
  induction fuel with
  | zero => intro buf h; omega
  | succ fuel ih =>
    intro buf hlen
    cases buf with
    | nil => left; exact ⟨[], rfl, .nil⟩
    | cons c cs =>
      rw [parseLoop]
      rcases parseEntry_cases (c :: cs) with ⟨⟨e, rest⟩, he⟩ | he
      · rw [he]
        simp only
        obtain ⟨m, hm, hn, hid, hb⟩ := parseEntry_sound he
        have hlt : rest.length < fuel := by
          have hl : (c :: cs).length = m.length + (1 + (e.name.length + (1 + (e.oid.length + rest.length)))) := by rw [hb]; simp; omega
          omega
        rcases ih rest hlt with ⟨es, e1, e2⟩ | ⟨e1, e2⟩
        · left
          refine ⟨e :: es, by rw [e1], ?_⟩
          rw [hb]
          exact .cons hm hn hid e2
        · right
          refine ⟨by rw [e1], ?_⟩
          intro es ht
          rw [hb] at he
          generalize hg : m ++ b!" " ++ e.name ++ [0] ++ e.oid ++ rest = g at *
          rw [hb] at ht
          cases ht with
          | nil => simp at hg
          | cons hm' hn' hid' ht' =>
            rename_i m' v' n' id' rest' es'
            rw [parseEntry_ok hm' hn' hid'] at he
            simp only [Res.ok.injEq, Prod.mk.injEq] at he
            obtain ⟨_, rfl⟩ := he
            exact e2 _ ht'
      · rw [he]
        right
        refine ⟨rfl, ?_⟩
        intro es ht
        generalize hg : c :: cs = g at *
        cases ht with
        | nil => simp at hg
        | cons hm' hn' hid' ht' => rw [parseEntry_ok hm' hn' hid'] at he; cases he

theorem treeText_unique {b : Bytes} {es es' : List (Nat × Bytes × Bytes)} (h : TreeText b es) (h' : TreeText b es') : es = es' := by
  induction h generalizing es' with
  | nil =>
    generalize hg : ([] : Bytes) = g at h'
    cases h' with
    | nil => rfl
    | cons => simp at hg
  | cons hm hn hid ht ih =>
    rename_i m v n id rest es
    generalize hg : m ++ b!" " ++ n ++ [0] ++ id ++ rest = g at h'
    have e1 := parseEntry_ok (rest := rest) hm hn hid
    rw [hg] at e1
    cases h' with
    | nil => simp at hg
    | cons hm' hn' hid' ht' =>
      rw [parseEntry_ok hm' hn' hid'] at e1
      simp only [Res.ok.injEq, Prod.mk.injEq, Entry.mk.injEq] at e1
      obtain ⟨⟨rfl, rfl, rfl⟩, rfl⟩ := e1
      rw [ih ht']

theorem toSpec_inj : Function.Injective Entry.toSpec := by
  rintro ⟨a, b, c⟩ ⟨a', b', c'⟩ h
  simp only [Entry.toSpec, Prod.mk.injEq] at h
  obtain ⟨rfl, rfl, rfl⟩ := h
  rfl

end Verif.Tree
