import Verif.Strtol.Model
/-! # Model of the value parsers in `src/libgit2/config.c`

A value is a C string (no NUL), or missing (`none`, the `NULL` of a variable without `=`). Signed overflow is `ub`. `strcasecmp` compares in the
C locale. `git_config_parse_path` needs the home directory and is not modelled. -/
namespace Verif.ConfigVal
open Strtol

/-- `num *= 1024` on an `int64_t`: src/libgit2/config.c:1465, :1470, :1475 -/
def times1024 (n : Int) : Res Int := if -(2 ^ 63) ≤ n * 1024 ∧ n * 1024 < 2 ^ 63 then .ok (n * 1024) else .ub

/-- the multiplications the suffix calls for; `none` if the character is no suffix: src/libgit2/config.c:1462-1475 -/
def scale (c : UInt8) (n : Int) : Option (Res Int) :=
  if c = c!"g" ∨ c = c!"G" then some (times1024 n >>= times1024 >>= times1024)
  else if c = c!"m" ∨ c = c!"M" then some (times1024 n >>= times1024)
  else if c = c!"k" ∨ c = c!"K" then some (times1024 n)
  else none

/-- the `switch` of `git_config_parse_int64`: src/libgit2/config.c:1462-1491 -/
def withSuffix (n : Int) : Bytes → Res Int
  | [] => .ok n
  | c :: more =>
    match scale c n with
    | none => .err (-1)
    | some (.ok v) => if more ≠ [] then .err (-1) else .ok v
    | some (.err e) => .err e
    | some .ub => .ub

/-- `git_config_parse_int64`: src/libgit2/config.c:1454-1495 -/
def parseInt64 : Option Bytes → Res Int
  | none => .err (-1)
  | some s =>
    match strntol64 s 0 with
    | .ok r => withSuffix r.1 r.2
    | .err _ => .err (-1)
    | .ub => .ub

/-- conversion of an `int64_t` to `int32_t` (modulo 2^32): src/libgit2/config.c:1505 -/
def truncate32 (n : Int) : Int := (n + 2 ^ 31) % 2 ^ 32 - 2 ^ 31

/-- `git_config_parse_int32`: src/libgit2/config.c:1497-1515 -/
def parseInt32 (value : Option Bytes) : Res Int :=
  match parseInt64 value with
  | .ok n => if truncate32 n ≠ n then .err (-1) else .ok (truncate32 n)
  | .err _ => .err (-1)
  | .ub => .ub

/-- `tolower` in the C locale [src/util/util.c:162-167] -/
def toLower (c : UInt8) : UInt8 := if c!"A" ≤ c ∧ c ≤ c!"Z" then c + 32 else c

/-- `strcasecmp(a, b) == 0` [src/util/util.c:162-167, used at src/libgit2/config.c:1408] -/
def caseEq (a b : Bytes) : Bool := a.map toLower = b.map toLower

/-- `git__parse_bool`: src/util/util.c:634-653 -/
def utilParseBool : Option Bytes → Res Bool
  | none => .ok true
  | some v =>
    if caseEq v b!"true" ∨ caseEq v b!"yes" ∨ caseEq v b!"on" then .ok true
    else if caseEq v b!"false" ∨ caseEq v b!"no" ∨ caseEq v b!"off" ∨ v = [] then .ok false
    else .err (-1)

/-- `git_config_parse_bool`: src/libgit2/config.c:1440-1452 -/
def parseBool (value : Option Bytes) : Res Bool :=
  match utilParseBool value with
  | .ok b => .ok b
  | _ =>
    match parseInt32 value with
    | .ok n => .ok (n ≠ 0)
    | .err _ => .err (-1)
    | .ub => .ub

/-- `git_configmap_t` and `git_configmap`: include/git2/config.h:152-172 -/
inductive MapType where
  | false | true | int32 | string
  deriving DecidableEq

/-- [include/git2/config.h:160-164] -/
structure MapEntry where
  type : MapType
  str : Bytes
  value : Int

/-- one round of the loop of `git_config_lookup_map_value`: src/libgit2/config.c:1386-1413; `none`: go on -/
def mapOne (e : MapEntry) (value : Option Bytes) : Res (Option Int) :=
  match e.type with
  | .false => match parseBool value with
    | .ok b => .ok (if b = false then some e.value else none)
    | .err _ => .ok none
    | .ub => .ub
  | .true => match parseBool value with
    | .ok b => .ok (if b = true then some e.value else none)
    | .err _ => .ok none
    | .ub => .ub
  | .int32 => match parseInt32 value with
    | .ok n => .ok (some n)
    | .err _ => .ok none
    | .ub => .ub
  | .string => match value with
    | none => .ok none
    | some v => .ok (if caseEq v e.str then some e.value else none)

/-- `git_config_lookup_map_value`: src/libgit2/config.c:1378-1418 -/
def lookupMapValue : List MapEntry → Option Bytes → Res Int
  | [], _ => .err (-1)
  | e :: es, value =>
    match mapOne e value with
    | .ok (some v) => .ok v
    | .ok none => lookupMapValue es value
    | .err e => .err e
    | .ub => .ub

end Verif.ConfigVal
