/-!
# libks/string.c and libks/string-x86_64.S

Bytes are modelled as `Char`s with code below 256.  `ranges`, a NUL terminated
C string of character pairs, is modelled as a list of pairs; every caller in
/repo passes a literal of even length.
-/
namespace Knfmt.Str

/-- Value of a C `char` on a platform where `char` is signed (x86_64), as used by
the comparisons of libks/string.c:36 and libks/string.c:57. Codes from 256 on are
not bytes; they are left unchanged so that statements need no side condition. -/
def schar (c : Char) : Int :=
  if c.toNat < 128 ∨ c.toNat ≥ 256 then (c.toNat : Int) else (c.toNat : Int) - 256

/-- The inner loop over `ranges`, libks/string.c:35-40 and 56-59 (signed comparison). -/
def anyRange : List (Char × Char) → Char → Bool
  | [], _ => false
  | (lo, hi) :: rs, c =>
    if schar c ≥ schar lo ∧ schar c ≤ schar hi then true else anyRange rs c

/-- `KS_str_match_default`, libks/string.c:26-46: number of leading bytes that
are in one of the ranges. -/
def matchDefault (rs : List (Char × Char)) : List Char → Nat
  | [] => 0
  | c :: s => if anyRange rs c then 1 + matchDefault rs s else 0

/-- `KS_str_match_until_default`, libks/string.c:48-63: number of leading bytes
that are in none of the ranges. -/
def matchUntilDefault (rs : List (Char × Char)) : List Char → Nat
  | [] => 0
  | c :: s => if anyRange rs c then 0 else 1 + matchUntilDefault rs s

/-- Unsigned byte comparison of one range pair, the `CTRL_SOURCE_U8` /
`CTRL_AGGREGATE_RANGES` mode of pcmpistr[im], libks/string-x86_64.S:47-51, 89-94. -/
def anyRangeU8 : List (Char × Char) → Char → Bool
  | [], _ => false
  | (lo, hi) :: rs, c => (lo.toNat ≤ c.toNat && c.toNat ≤ hi.toNat) || anyRangeU8 rs c

/-- `IntRes1` of pcmpistr[im] for a 16 byte block: bytes at and after the first
NUL are invalid and never match (implicit length). Only the 8 pairs that fit in
`xmm1` (libks/string-x86_64.S:55, 98) take part. -/
def intRes1 (rs : List (Char × Char)) : List Char → List Bool
  | [] => []
  | c :: s => if c = '\x00' then List.replicate (s.length + 1) false
              else anyRangeU8 (rs.take 8) c :: intRes1 rs s

/-- Position of the first set bit, number of bits if none: `tzcnt` on a 16 bit
register (libks/string-x86_64.S:71) and the index output of pcmpistri. -/
def tzcnt : List Bool → Nat
  | [] => 0
  | b :: m => if b then 0 else 1 + tzcnt m

/-- The zeroed 16 byte stack buffer holding the remaining bytes,
libks/string-x86_64.S:77-83 and 117-124. -/
def pad16 (s : List Char) : List Char := s ++ List.replicate (16 - s.length) '\x00'

/-- `KS_str_match_native`, libks/string-x86_64.S:46-84. Negative polarity flips
all 16 bits; `jna` (line 63) leaves the loop if any bit is set or if the block
has a NUL byte. -/
def matchNative (rs : List (Char × Char)) (s : List Char) : Nat :=
  if h : s.length < 16 then
    tzcnt ((intRes1 rs (pad16 s)).map (!·))
  else
    let m := (intRes1 rs (s.take 16)).map (!·)
    if m.any id ∨ (s.take 16).any (· = '\x00') then tzcnt m
    else 16 + matchNative rs (s.drop 16)
termination_by s.length
decreasing_by simp; omega

/-- `KS_str_match_until_native`, libks/string-x86_64.S:88-128. `jc` (line 105)
leaves the loop if any bit is set. -/
def matchUntilNative (rs : List (Char × Char)) (s : List Char) : Nat :=
  if h : s.length < 16 then
    let m := intRes1 rs (pad16 s)
    if m.any id then tzcnt m else s.length
  else
    let m := intRes1 rs (s.take 16)
    if m.any id then tzcnt m
    else 16 + matchUntilNative rs (s.drop 16)
termination_by s.length
decreasing_by simp; omega

/-- Does the NUL terminated string `s` start with `delim`?  One step of
`strstr(3)`, libks/string.c:81. -/
def isPrefix : List Char → List Char → Bool
  | [], _ => true
  | _ :: _, [] => false
  | d :: ds, c :: cs => d == c && isPrefix ds cs

/-- `strstr(3)` as used in libks/string.c:81: the part before the first
occurrence of `delim` and the part after it. -/
def strstr (delim : List Char) : List Char → Option (List Char × List Char)
  | [] => if isPrefix delim [] then some ([], []) else none
  | c :: s =>
    if isPrefix delim (c :: s) then some ([], (c :: s).drop delim.length)
    else (strstr delim s).map fun (a, b) => (c :: a, b)

/-- The loop of `KS_str_split`, libks/string.c:74-89, bounded by the number of
bytes left.  Strings are NUL free lists. With an empty `delim` the C loop never
ends: that outcome is `none`. -/
def splitLoop (delim : List Char) : Nat → List Char → Option (List (List Char))
  | fuel, s =>
    match strstr delim s with
    | none => some [s]
    | some (a, b) =>
      match fuel with
      | 0 => none
      | fuel + 1 => (splitLoop delim fuel b).map (a :: ·)

/-- `KS_str_split`, libks/string.c:65-92. The number of iterations never exceeds
the length of the string unless `delim` is empty. -/
def split (delim s : List Char) : Option (List (List Char)) :=
  splitLoop delim s.length s

end Knfmt.Str
