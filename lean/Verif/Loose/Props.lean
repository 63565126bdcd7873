import Verif.Loose.Model
import Verif.Loose.Spec
import Verif.Pack.Props
/-! # C44: the header of an object, loose objects -/
namespace Verif.Loose
open Spec Verif.Strtol.Spec

theorem typeName_cases {t : Int} {name : Bytes} (h : typeName t = some name) :
    (t = 1 ∧ name = b!"commit") ∨ (t = 2 ∧ name = b!"tree") ∨ (t = 3 ∧ name = b!"blob") ∨ (t = 4 ∧ name = b!"tag") := by
  unfold typeName at h
  split at h <;> first | (cases h; simp) | cases h

theorem typeIsValid_iff (t : Int) : typeIsValid t = true ↔ ∃ name, typeName t = some name := by
  constructor
  · intro h
    unfold typeIsValid table at h
    split at h
    · cases h
    · rename_i h1
      simp at h h1
      have : t = 1 ∨ t = 2 ∨ t = 3 ∨ t = 4 := by omega
      rcases this with rfl | rfl | rfl | rfl <;> exact ⟨_, rfl⟩
  · rintro ⟨name, h⟩
    rcases typeName_cases h with ⟨rfl, _⟩ | ⟨rfl, _⟩ | ⟨rfl, _⟩ | ⟨rfl, _⟩ <;> rfl

theorem type2string_eq {t : Int} {name : Bytes} (h : typeName t = some name) : type2string t = name := by
  rcases typeName_cases h with ⟨rfl, rfl⟩ | ⟨rfl, rfl⟩ | ⟨rfl, rfl⟩ | ⟨rfl, rfl⟩ <;> rfl

theorem decimalInt_nat (n : Nat) : decimalInt (n : Int) = decimal n := by
  unfold decimalInt
  rw [if_neg (by omega)]; rfl

theorem header_length {t : Int} {n : Nat} {h : Bytes} (hh : Header t n h) (hn : n < 2 ^ 63) : h.length ≤ 27 := by
  obtain ⟨name, h1, rfl⟩ := hh
  have := decimal_length 18 n (by omega)
  rcases typeName_cases h1 with ⟨_, rfl⟩ | ⟨_, rfl⟩ | ⟨_, rfl⟩ | ⟨_, rfl⟩ <;> simp <;> omega

/-- C44: for the four types and every size below `2^63`, what is written is the header of the format; the 64 bytes the callers
provide are always enough. -/
theorem C44_format (t : Int) (len : Nat) (ht : typeIsValid t = true) (hl : len < 2 ^ 63) :
    ∃ h, formatHeader 64 len t = .ok h ∧ Header t len h ∧ h.length ≤ 27 := by
  obtain ⟨name, h1⟩ := (typeIsValid_iff t).mp ht
  have hh : Header t len (name ++ b!" " ++ decimal len ++ [0]) := ⟨name, h1, rfl⟩
  have hlen := header_length hh hl
  refine ⟨_, ?_, hh, hlen⟩
  unfold formatHeader
  have e : toI64 len = (len : Int) := by
    unfold toI64
    rw [Nat.mod_eq_of_lt (by omega), if_pos hl]
  simp only [e, decimalInt_nat, type2string_eq h1]
  rw [if_neg]
  · simp
  · simp at hlen ⊢; omega

/-- exactly what `parse_header` accepts -/
theorem parseHeader_ok (data : Bytes) (t : Int) (size n : Nat) :
    parseHeader data = .ok (t, size, n) ↔
      ∃ name num rest tail, data = name ++ c!" " :: (num ++ 0 :: rest) ∧ (∀ c ∈ name, c ≠ c!" ") ∧ (∀ c ∈ num, c ≠ 0) ∧
        Number num 10 size tail ∧ size < 2 ^ 63 ∧ t = stringn2type name ∧ n = name.length + 1 + num.length + 1 := by
  have hsplit := List.takeWhile_append_dropWhile (p := (fun c : UInt8 => decide (c ≠ c!" "))) (l := data)
  have hname := takeWhile_all (fun c : UInt8 => decide (c ≠ c!" ")) data
  unfold parseHeader
  constructor
  · intro h
    simp only [] at h
    generalize hn : data.takeWhile (fun c : UInt8 => decide (c ≠ c!" ")) = name at *
    split at h
    · cases h
    · rename_i hne
      cases hd : data.dropWhile (fun c : UInt8 => decide (c ≠ c!" ")) with
      | nil =>
        rw [hd, List.append_nil] at hsplit
        rw [hsplit] at hne; exact absurd rfl hne
      | cons sp tl =>
        have hsp : sp = c!" " := by
          have := dropWhile_head (fun c : UInt8 => decide (c ≠ c!" ")) data sp (by rw [hd]; rfl)
          simpa using this
        rw [hd, hsp] at hsplit
        have hdrop : data.drop (name.length + 1) = tl := by
          rw [← hsplit, List.drop_append]; simp
        rw [hdrop] at h
        have hsplit2 := List.takeWhile_append_dropWhile (p := (fun c : UInt8 => decide (c ≠ 0))) (l := tl)
        have hnum := takeWhile_all (fun c : UInt8 => decide (c ≠ 0)) tl
        generalize hm : tl.takeWhile (fun c : UInt8 => decide (c ≠ 0)) = num at *
        split at h
        · cases h
        · rename_i hne2
          cases hd2 : tl.dropWhile (fun c : UInt8 => decide (c ≠ 0)) with
          | nil =>
            rw [hd2, List.append_nil] at hsplit2
            rw [← hsplit, hsplit2] at hne2
            simp at hne2; omega
          | cons z rest =>
            have hz : z = 0 := by
              have := dropWhile_head (fun c : UInt8 => decide (c ≠ 0)) tl z (by rw [hd2]; rfl)
              simpa using this
            rw [hd2, hz] at hsplit2
            cases hs : Strtol.strntol64 num 10 with
            | err e => rw [hs] at h; cases h
            | ub => rw [hs] at h; cases h
            | ok x =>
              obtain ⟨v, tail⟩ := x
              rw [hs] at h
              simp only [] at h
              split at h
              · cases h
              · cases h
                obtain ⟨q1, q2, q3⟩ := (Strtol.C46_exact64 _ _ _ _).mp hs
                refine ⟨name, num, rest, tail, by rw [hsplit2, hsplit], fun c hc => by simpa using hname c hc,
                  fun c hc => by simpa using hnum c hc, ?_, by omega, rfl, rfl⟩
                rwa [Int.toNat_of_nonneg (by omega)]
  · rintro ⟨name, num, rest, tail, rfl, h1, h2, h3, h4, rfl, rfl⟩
    have e1 : (name ++ c!" " :: (num ++ 0 :: rest)).takeWhile (fun c : UInt8 => decide (c ≠ c!" ")) = name :=
      takeWhile_append_stop _ _ _ (fun x hx => by simpa using h1 x hx) (by simp)
    have e2 : (name ++ c!" " :: (num ++ 0 :: rest)).drop (name.length + 1) = num ++ 0 :: rest := by
      rw [List.drop_append]; simp
    have e3 : (num ++ 0 :: rest).takeWhile (fun c : UInt8 => decide (c ≠ 0)) = num :=
      takeWhile_append_stop _ _ _ (fun x hx => by simpa using h2 x hx) (by simp)
    simp only [e1, e2, e3]
    rw [if_neg (by simp), if_neg (by simp; omega)]
    rw [(Strtol.C46_exact64 num 10 (size : Int) tail).mpr ⟨h3, by omega, by omega⟩]
    simp only []
    rw [if_neg (by omega)]
    rfl

/-- C44: for all bytes, exactly what is accepted as a header and what it is taken to mean: a word without spaces, one space, a
text without NUL that begins with a number between 0 and `2^63 - 1`, a NUL. The type is the one whose name the word
begins with (so more is accepted than is ever written: see `C44_lenient`). -/
theorem C44_parse (data : Bytes) (t : Int) (size n : Nat) :
    parseHeader data = .ok (t, size, n) ↔
      ∃ name num rest tail, data = name ++ b!" " ++ num ++ [0] ++ rest ∧ (∀ c ∈ name, c ≠ c!" ") ∧ (∀ c ∈ num, c ≠ 0) ∧
        Number num 10 size tail ∧ size < 2 ^ 63 ∧ t = stringn2type name ∧ n = (name ++ b!" " ++ num ++ [0]).length := by
  rw [parseHeader_ok]
  constructor
  · rintro ⟨name, num, rest, tail, rfl, h1, h2, h3, h4, rfl, rfl⟩
    exact ⟨name, num, rest, tail, by simp, h1, h2, h3, h4, rfl, by simp; omega⟩
  · rintro ⟨name, num, rest, tail, rfl, h1, h2, h3, h4, rfl, rfl⟩
    exact ⟨name, num, rest, tail, by simp, h1, h2, h3, h4, rfl, by simp; omega⟩

/-- C44: which words name a type: those that begin with the name. -/
theorem C44_type (str : Bytes) (t : Int) (ht : t ≠ INVALID) :
    stringn2type str = t ↔ ∃ name tail, typeName t = some name ∧ str = name ++ tail := by
  have hp : ∀ a b : Bytes, prefixEq a b = true ↔ ∃ tail, a = b ++ tail := by
    intro a
    induction a with
    | nil =>
      intro b; cases b with
      | nil => simp [prefixEq]
      | cons => simp [prefixEq]
    | cons x a ih =>
      intro b
      cases b with
      | nil => simp [prefixEq]
      | cons y b =>
        simp only [prefixEq]
        by_cases hxy : x = y
        · subst hxy; simp [ih]
        · simp [hxy]
  have hbase : ∀ (s : Bytes), (s.length = 0 ∨ s.head? = some 0) → ∀ name tail, typeName t = some name → s ≠ name ++ tail := by
    intro s hs name tail hn he
    subst he
    rcases typeName_cases hn with ⟨_, rfl⟩ | ⟨_, rfl⟩ | ⟨_, rfl⟩ | ⟨_, rfl⟩ <;> simp at hs
  unfold stringn2type
  by_cases h0 : str.length = 0 ∨ str.head? = some 0
  · rw [if_pos h0]
    constructor
    · intro h; exact absurd h.symm ht
    · rintro ⟨name, tail, h1, h2⟩; exact absurd h2 (hbase str h0 name tail h1)
  · rw [if_neg h0]
    simp only [table, stringn2typeLoop, ne_eq, not_true_eq_false, false_and, if_false]
    have ne : ∀ a b c d, ((a :: b : Bytes) = c :: d → a = c) := by intro a b c d h; cases h; rfl
    constructor
    · intro h
      split at h
      · rename_i hc; obtain ⟨tail, h2⟩ := (hp _ _).mp hc.2; exact ⟨_, tail, by rw [← h]; rfl, h2⟩
      · split at h
        · rename_i hc; obtain ⟨tail, h2⟩ := (hp _ _).mp hc.2; exact ⟨_, tail, by rw [← h]; rfl, h2⟩
        · split at h
          · rename_i hc; obtain ⟨tail, h2⟩ := (hp _ _).mp hc.2; exact ⟨_, tail, by rw [← h]; rfl, h2⟩
          · split at h
            · rename_i hc; obtain ⟨tail, h2⟩ := (hp _ _).mp hc.2; exact ⟨_, tail, by rw [← h]; rfl, h2⟩
            · exact absurd h.symm ht
    · rintro ⟨name, tail, h1, rfl⟩
      have np : ∀ (b tail : Bytes), prefixEq (b ++ tail) b = true := fun b tail => (hp _ _).mpr ⟨tail, rfl⟩
      rcases typeName_cases h1 with ⟨rfl, rfl⟩ | ⟨rfl, rfl⟩ | ⟨rfl, rfl⟩ | ⟨rfl, rfl⟩
      · rw [if_pos ⟨by simp, np _ _⟩]; rfl
      · rw [if_neg (by rintro ⟨_, h⟩; simp [prefixEq] at h), if_pos ⟨by simp, np _ _⟩]; rfl
      · rw [if_neg (by rintro ⟨_, h⟩; simp [prefixEq] at h), if_neg (by rintro ⟨_, h⟩; simp [prefixEq] at h),
          if_pos ⟨by simp, np _ _⟩]; rfl
      · rw [if_neg (by rintro ⟨_, h⟩; simp [prefixEq] at h), if_neg (by rintro ⟨_, h⟩; simp [prefixEq] at h),
          if_neg (by rintro ⟨_, h⟩; simp [prefixEq] at h), if_pos ⟨by simp, np _ _⟩]; rfl

/-- C44: a header, followed by anything, is read back. -/
theorem C44_roundtrip (t : Int) (len : Nat) (h suffix : Bytes) (hl : len < 2 ^ 63) (hh : Header t len h) :
    parseHeader (h ++ suffix) = .ok (t, len, h.length) := by
  obtain ⟨name, h1, rfl⟩ := hh
  refine (C44_parse _ _ _ _).mpr ⟨name, decimal len, suffix, [], rfl, ?_, ?_, ?_, hl, ?_, rfl⟩
  · rcases typeName_cases h1 with ⟨_, rfl⟩ | ⟨_, rfl⟩ | ⟨_, rfl⟩ | ⟨_, rfl⟩ <;> decide +kernel
  · intro c hc
    obtain ⟨a, b⟩ := decimal_digits len c hc
    exact (digit_facts c a b).2.2.2.2.2.2.2.2
  · simpa using number_decimal len [] (by simp)
  · have ht : t ≠ INVALID := by
      rcases typeName_cases h1 with ⟨rfl, _⟩ | ⟨rfl, _⟩ | ⟨rfl, _⟩ | ⟨rfl, _⟩ <;> decide
    exact ((C44_type name t ht).mpr ⟨name, [], h1, by simp⟩).symm

/-- C44 (leniency of the parser, which the format does not have): a longer type word, blanks and a sign before the size and
text after it are all accepted. -/
theorem C44_lenient : parseHeader (b!"blobfish  +3 bytes" ++ [0]) = .ok (3, 3, 19) := by decide +kernel

/-- C44 (a size of `2^63` or more is written as a negative number, which the reader refuses) -/
theorem C44_huge (t : Int) (len : Nat) (suffix : Bytes) (ht : typeIsValid t = true) (h1 : 2 ^ 63 ≤ len) (h2 : len < 2 ^ 64) :
    ∃ h, formatHeader 64 len t = .ok h ∧ parseHeader (h ++ suffix) = .err (-1) := by
  obtain ⟨name, hn⟩ := (typeIsValid_iff t).mp ht
  have e : toI64 len = -((2 ^ 64 - len : Nat) : Int) := by
    unfold toI64
    rw [Nat.mod_eq_of_lt h2, if_neg (by omega)]; omega
  have ed : decimalInt (toI64 len) = c!"-" :: decimal (2 ^ 64 - len) := by
    rw [e]; unfold decimalInt
    rw [if_pos (by omega), Int.natAbs_neg, Int.natAbs_natCast]
  have hdl := decimal_length 18 (2 ^ 64 - len) (by omega)
  generalize hK : 2 ^ 64 - len = K at *
  have hK1 : 0 < K ∧ K ≤ 2 ^ 63 := by omega
  refine ⟨name ++ c!" " :: (c!"-" :: decimal K) ++ [0], ?_, ?_⟩
  · unfold formatHeader
    simp only [ed, type2string_eq hn]
    rw [if_neg]
    rcases typeName_cases hn with ⟨_, rfl⟩ | ⟨_, rfl⟩ | ⟨_, rfl⟩ | ⟨_, rfl⟩ <;> simp <;> omega
  · have hnosp : ∀ c ∈ name, c ≠ c!" " := by
      rcases typeName_cases hn with ⟨_, rfl⟩ | ⟨_, rfl⟩ | ⟨_, rfl⟩ | ⟨_, rfl⟩ <;> decide +kernel
    have hno0 : ∀ c ∈ c!"-" :: decimal K, c ≠ 0 := by
      intro c hc
      rcases List.mem_cons.mp hc with rfl | hc
      · decide
      · obtain ⟨a, b⟩ := decimal_digits _ c hc
        exact (digit_facts c a b).2.2.2.2.2.2.2.2
    have e0 : name ++ c!" " :: (c!"-" :: decimal K) ++ [0] ++ suffix =
        name ++ c!" " :: ((c!"-" :: decimal K) ++ 0 :: suffix) := by simp
    rw [e0]
    unfold parseHeader
    generalize hnum : c!"-" :: decimal K = num at *
    have e1 : (name ++ c!" " :: (num ++ 0 :: suffix)).takeWhile (fun c : UInt8 => decide (c ≠ c!" ")) = name :=
      takeWhile_append_stop _ _ _ (fun x hx => by simpa using hnosp x hx) (by simp)
    have e2 : (name ++ c!" " :: (num ++ 0 :: suffix)).drop (name.length + 1) = num ++ 0 :: suffix := by
      rw [List.drop_append]; simp
    have e3 : (num ++ 0 :: suffix).takeWhile (fun c : UInt8 => decide (c ≠ 0)) = num :=
      takeWhile_append_stop _ _ _ (fun x hx => by simpa using hno0 x hx) (by simp)
    simp only [e1, e2, e3]
    rw [if_neg (by simp), if_neg (by simp; omega)]
    have hnb := number_decimal_neg K [] (by simp)
    rw [List.append_nil, hnum] at hnb
    rw [(Strtol.C46_exact64 num 10 _ _).mpr ⟨hnb, by omega, by omega⟩]
    simp only []
    rw [if_pos (by omega)]

/-! ## files -/

/-- what is assumed of zlib: decompressing what was compressed gives it back, and a compressed stream begins with the two bytes of
RFC 1950 (deflate, at most a 32 KiB window, no dictionary as checked by the code) -/
def ZlibOk (z : Zlib) : Prop := ∀ x, z.inflate (z.deflate x) = some x ∧ isZlib (z.deflate x) = true

/-- C44: an object written to a loose file is read back: type, length and contents. -/
theorem C44_loose_roundtrip (z : Zlib) (hz : ZlibOk z) (t : Int) (data : Bytes) (ht : typeIsValid t = true) (hl : data.length < 2 ^ 63) :
    ∃ file, writeLoose z t data = .ok file ∧ readLoose z file = .ok ⟨t, data.length, data⟩ := by
  obtain ⟨h, h1, h2, h3⟩ := C44_format t data.length ht hl
  refine ⟨z.deflate (h ++ data), by unfold writeLoose MAX_HEADER_LEN; rw [h1], ?_⟩
  obtain ⟨z1, z2⟩ := hz (h ++ data)
  unfold readLoose
  rw [if_neg (by simp [z2])]
  unfold readStandard
  rw [z1]
  have ehead : (h ++ data).take MAX_HEADER_LEN = h ++ data.take (64 - h.length) := by
    unfold MAX_HEADER_LEN
    rw [List.take_append, List.take_of_length_le (by omega)]
  have ebody : (h ++ data.take (64 - h.length)).drop h.length = data.take (64 - h.length) := by
    rw [List.drop_append]; simp
  have erest : (h ++ data).drop MAX_HEADER_LEN = data.drop (64 - h.length) := by
    unfold MAX_HEADER_LEN
    rw [List.drop_append, List.drop_eq_nil_of_le (by omega), List.nil_append]
  simp only [ehead, C44_roundtrip t data.length h _ hl h2, ht, not_true_eq_false, if_false, ebody, erest]
  rw [if_neg (by simp; omega), if_neg (by simp; omega)]
  have emore : (data.drop (64 - h.length)).take (data.length - (data.take (64 - h.length)).length) = data.drop (64 - h.length) := by
    apply List.take_of_length_le
    simp; omega
  rw [emore, if_neg (by unfold MAX_HEADER_LEN; simp; omega)]
  congr 2
  rw [List.take_append_drop]
  simp
  omega

/-- C44: what reading a compressed file can return: the header's type and size, and that many bytes: the contents of the stream
after the header, cut or filled up with zeros. -/
theorem C44_read_standard (z : Zlib) (file out : Bytes) (raw : Raw) (hi : z.inflate file = some out)
    (h : readStandard z file = .ok raw) :
    ∃ n, parseHeader (out.take 64) = .ok (raw.type, raw.len, n) ∧ typeIsValid raw.type = true ∧
      raw.data.length = raw.len ∧ raw.data = ((out.drop n) ++ List.replicate raw.len 0).take raw.len ∧
      (out.length ≤ n + raw.len + 1) := by
  unfold readStandard at h
  rw [hi] at h
  simp only [show MAX_HEADER_LEN = 64 from rfl] at h
  cases hp : parseHeader (out.take 64) with
  | err e => rw [hp] at h; cases h
  | ub => rw [hp] at h; cases h
  | ok x =>
    obtain ⟨t, size, n⟩ := x
    rw [hp] at h
    simp only [] at h
    have hn : n ≤ (out.take 64).length := by
      obtain ⟨name, num, rest, tail, e1, _, _, _, _, _, e2⟩ := (C44_parse _ _ _ _).mp hp
      rw [e1, e2]; simp
    split at h
    · cases h
    · rename_i ht
      have ht : typeIsValid t = true := by simpa using ht
      have hout : out.drop n = (out.take 64).drop n ++ out.drop 64 := by
        rw [← List.drop_append_of_le_length hn, List.take_append_drop]
      generalize hb : (out.take 64).drop n = body at *
      split at h
      · cases h
      · split at h
        · rename_i hb1 hb2
          split at h
          · cases h
          · rename_i h64
            cases h
            refine ⟨n, rfl, ht, by simp only [List.length_take]; omega, ?_, ?_⟩
            · rw [hout, List.drop_eq_nil_of_le (by omega), List.append_nil, List.take_append_of_le_length (by simp only []; omega)]
            · have := congrArg List.length hout
              rw [List.length_drop, List.length_append, List.length_drop] at this
              simp only [] ; omega
        · rename_i hb1 hb2
          split at h
          · cases h
          · rename_i h64
            cases h
            have hlen : (out.drop 64).length ≤ size - body.length := by
              rw [List.length_take] at h64
              simp at h64 ⊢
              omega
            have hmore : (out.drop 64).take (size - body.length) = out.drop 64 := List.take_of_length_le hlen
            refine ⟨n, rfl, ht, ?_, ?_, ?_⟩
            · simp only [hmore, List.length_append, List.length_replicate]; omega
            · simp only [hmore, hout]
              rw [List.take_append, List.take_of_length_le (by simp only [List.length_append]; omega)]
              congr 1
              rw [List.take_replicate]
              simp only [List.length_append]
              congr 1; omega
            · have := congrArg List.length hout
              rw [List.length_drop, List.length_append] at this
              simp only []; omega

/-- C44 (undefined behaviour): a small file that announces a size smaller than what it holds overruns the buffer of the
contents: bytes after the header are copied before the size is compared. -/
theorem C44_loose_overflow (z : Zlib) (file : Bytes) (hz : isZlib file = true) (h : z.inflate file = some (b!"blob 0" ++ [0] ++ b!"abc")) :
    readLoose z file = .ub := by
  unfold readLoose readStandard
  rw [if_neg (by simp [hz]), h]
  decide +kernel

/-- C44 (what the code does): a stream that ends early is filled up with zeros and reported as a success. -/
theorem C44_loose_padding (z : Zlib) (file : Bytes) (hz : isZlib file = true) (h : z.inflate file = some (b!"blob 5" ++ [0] ++ b!"abc")) :
    readLoose z file = .ok ⟨3, 5, b!"abc" ++ [0, 0]⟩ := by
  unfold readLoose readStandard
  rw [if_neg (by simp [hz]), h]
  decide +kernel

/-- C44 (undefined behaviour for the caller): in the old uncompressed-header format the length reported is the announced one,
however many bytes there are. -/
theorem C44_packlike_length (z : Zlib) (rest : Bytes) (h : z.inflate rest = some b!"abc") :
    readLoose z (0x3f :: rest) = .ok ⟨3, 15, b!"abc"⟩ := by
  have e : Pack.unpackHeader1 (0x3f :: rest) = .ok (3, 15, 1) :=
    (Pack.C07_read _ _ _ _).mpr ⟨[0x3f], rest, 15, rfl, .short 0x3f (by decide), by simp, rfl, rfl⟩
  unfold readLoose
  have hz : isZlib (0x3f :: rest) = false := by
    cases rest with
    | nil => rfl
    | cons b r => simp only [isZlib]; rw [decide_eq_false_iff_not]; rintro ⟨h, _⟩; revert h; decide
  rw [if_pos (by simp [hz])]
  unfold readPacklike
  simp only [e, List.drop_succ_cons, List.drop_zero, h]
  rfl

/-- the header determines where it ends -/
theorem header_inj {t t' : Int} {n n' : Nat} {h h' a b : Bytes} (hh : Header t n h) (hh' : Header t' n' h') (hn : n < 2 ^ 63)
    (hn' : n' < 2 ^ 63) (e : h ++ a = h' ++ b) : t = t' ∧ n = n' ∧ a = b := by
  have e1 := C44_roundtrip t n h a hn hh
  have e2 := C44_roundtrip t' n' h' b hn' hh'
  rw [e, e2] at e1
  simp only [Res.ok.injEq, Prod.mk.injEq] at e1
  obtain ⟨rfl, rfl, e3⟩ := e1
  refine ⟨rfl, rfl, ?_⟩
  have := congrArg (List.drop h.length) e
  rw [List.drop_left, ← e3, List.drop_left] at this
  exact this

/-- C44: an object is identified by its hash: if the hash function does not confuse the two byte strings, two objects with the
same id have the same type and the same contents, so a read that verifies the id returns the object that was named. -/
theorem C44_identified (hash : Bytes → Bytes) (hinj : ∀ x y, hash x = hash y → x = y) (a b : Raw) (id : Bytes)
    (ha : a.data.length = a.len) (hb : b.data.length = b.len) (hla : a.len < 2 ^ 63) (hlb : b.len < 2 ^ 63)
    (h1 : hashObj hash a = .ok id) (h2 : hashObj hash b = .ok id) : a = b := by
  have key : ∀ r : Raw, r.data.length = r.len → r.len < 2 ^ 63 → hashObj hash r = .ok id →
      ∃ h, Header r.type r.len h ∧ hash (h ++ r.data) = id := by
    intro r hr hlr h
    unfold hashObj at h
    split at h
    · cases h
    · rename_i ht
      obtain ⟨hd, e1, e2, _⟩ := C44_format r.type r.len (by simpa using ht) hlr
      rw [if_neg (by omega), e1] at h
      simp only [← hr, List.take_length] at h
      cases h
      rw [hr] at *
      exact ⟨hd, e2, rfl⟩
  obtain ⟨x, e1, e2⟩ := key a ha hla h1
  obtain ⟨y, e3, e4⟩ := key b hb hlb h2
  obtain ⟨p, q, r⟩ := header_inj e1 e3 hla hlb (hinj _ _ (e2.trans e4.symm))
  cases a; cases b
  simp only at p q r
  subst p q r; rfl

theorem formatHeader_ex : formatHeader 64 42 3 = .ok (b!"blob 42" ++ [0]) := by
  unfold formatHeader
  rw [show decimalInt (toI64 42) = b!"42" by
    rw [show toI64 42 = ((42 : Nat) : Int) by decide, decimalInt_nat, decimal_ge 42 (by decide), decimal_lt _ (by decide)]; rfl]
  decide
/-- a "zlib" that only adds two bytes -/
def exZlib : Zlib := ⟨fun b => match b with | 0x78 :: 0x9c :: r => some r | _ => none, fun b => 0x78 :: 0x9c :: b⟩
example : ZlibOk exZlib := fun x => ⟨rfl, rfl⟩
example : readLoose exZlib (0x78 :: 0x9c :: (b!"blob 3" ++ [0] ++ b!"abc")) = .ok ⟨3, 3, b!"abc"⟩ := by decide +kernel
example : readLoose exZlib (0x78 :: 0x9c :: (b!"blob -3" ++ [0] ++ b!"abc")) = .err (-1) := by decide +kernel

end Verif.Loose
