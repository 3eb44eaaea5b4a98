import Verif.Basic
/-!
# Strings

Rust string operations used by the code: UTF-8 length, prefix/suffix tests, trimming,
splitting, decimal printing and parsing.
-/

namespace Zarr

/-- `str::len`: the number of UTF-8 bytes. -/
def byteLen (s : Str) : Nat := (s.map Char.utf8Size).sum

/-- `str::trim_start_matches(c)`. -/
def trimStart (c : Char) (s : Str) : Str := s.dropWhile (· == c)

/-- `str::trim_end_matches(c)`. -/
def trimEnd (c : Char) (s : Str) : Str := (s.reverse.dropWhile (· == c)).reverse

/-- `str::ends_with`. -/
def endsWith (s suf : Str) : Bool := suf.isSuffixOf s

/-- The pieces of `s` between occurrences of `c` (`str::split(c)`); never empty. -/
def splitOn (c : Char) : Str → List Str
  | [] => [[]]
  | x :: xs =>
    if x == c then [] :: splitOn c xs
    else match splitOn c xs with
      | [] => [[x]]
      | p :: ps => (x :: p) :: ps

/-- The decimal digit character of `d < 10`. -/
def digitChar (d : Nat) : Char := Char.ofNat (48 + d)

/-- Decimal digits of `n`, most significant first, with fuel. -/
def decAux : Nat → Nat → Str
  | 0, _ => []
  | f + 1, n => if n < 10 then [digitChar n] else decAux f (n / 10) ++ [digitChar (n % 10)]

/-- `format!("{}", n)` for an unsigned integer. -/
def dec (n : Nat) : Str := decAux (n + 1) n

/-- The value of a decimal digit. -/
def digitVal (c : Char) : Option Nat :=
  if 48 ≤ c.toNat ∧ c.toNat ≤ 57 then some (c.toNat - 48) else none

/-- Value of a digit string, most significant first, continuing from `acc`. -/
def parseDigits : Nat → Str → Option Nat
  | acc, [] => some acc
  | acc, c :: cs =>
    match digitVal c with
    | some d => parseDigits (acc * 10 + d) cs
    | none => none

/-- `str::parse::<usize>()` on a 64-bit target: an optional `+`, at least one digit, no overflow. -/
def parseUsize (s : Str) : Option Nat :=
  let body := match s with
    | '+' :: t => t
    | t => t
  if body.isEmpty then none
  else match parseDigits 0 body with
    | some n => if n < 2 ^ 64 then some n else none
    | none => none

/-- `String::truncate(n)` (n in bytes): nothing happens if `n` exceeds the length, a panic
occurs if `n` is not on a character boundary. -/
def truncateBytes : Nat → Str → Outcome Str
  | 0, _ => .ok []
  | _ + 1, [] => .ok []
  | n + 1, c :: cs =>
    if c.utf8Size ≤ n + 1 then
      match truncateBytes (n + 1 - c.utf8Size) cs with
      | .ok t => .ok (c :: t)
      | .err e => .err e
      | .panic => .panic
    else .panic
termination_by structural _ s => s

/-- `s.drain(..n)` (n in bytes): remove the first `n` bytes; a panic if `n` exceeds the length
or is not on a character boundary. -/
def drainBytes : Nat → Str → Outcome Str
  | 0, s => .ok s
  | _ + 1, [] => .panic
  | n + 1, c :: cs => if c.utf8Size ≤ n + 1 then drainBytes (n + 1 - c.utf8Size) cs else .panic
termination_by structural _ s => s

end Zarr
