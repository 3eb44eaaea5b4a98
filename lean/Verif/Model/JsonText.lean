import Verif.Model.Json
/-!
# A concrete JSON text form

A compact JSON printer and a recursive-descent parser over UTF-8, in the manner of serde_json's
`to_writer` and `from_reader`. This is code outside the repository: the property theorems take any
`JsonText` satisfying `JsonText.Lawful`; this one is proved to satisfy it (`Lemmas/JsonText.lean`), so
that the law is not empty, and it makes the whole model executable.

Simplified: floating point numbers are printed as `0.0` and not parsed, leading zeros are accepted, a
key repeated in an object is kept twice, `\u` escapes of surrogate pairs are refused, and the recursion
limit is applied to the document once it is read. -/

namespace Zarr

/-! ## UTF-8 -/

/-- A byte. -/
def byte (n : Nat) : Byte := BitVec.ofNat 8 n

/-- The UTF-8 bytes of a character. -/
def utf8Char (c : Char) : Bytes :=
  let n := c.toNat
  if n < 0x80 then [byte n]
  else if n < 0x800 then [byte (0xC0 + n / 64), byte (0x80 + n % 64)]
  else if n < 0x10000 then
    [byte (0xE0 + n / 4096), byte (0x80 + n / 64 % 64), byte (0x80 + n % 64)]
  else
    [byte (0xF0 + n / 262144), byte (0x80 + n / 4096 % 64), byte (0x80 + n / 64 % 64),
     byte (0x80 + n % 64)]

/-- The UTF-8 bytes of a string. -/
def utf8 (s : Str) : Bytes := s.flatMap utf8Char

/-- A continuation byte. -/
def isCont (b : Byte) : Bool := 0x80 ≤ b.toNat && b.toNat < 0xC0

/-- One character and the bytes after it. -/
def unUtf8Char : Bytes → Option (Char × Bytes)
  | [] => none
  | b :: r =>
    if b.toNat < 0x80 then some (Char.ofNat b.toNat, r)
    else if b.toNat < 0xC0 then none
    else if b.toNat < 0xE0 then
      match r with
      | c :: r =>
        let n := (b.toNat - 0xC0) * 64 + (c.toNat - 0x80)
        if isCont c && decide (0x80 ≤ n) then some (Char.ofNat n, r) else none
      | _ => none
    else if b.toNat < 0xF0 then
      match r with
      | c :: d :: r =>
        let n := (b.toNat - 0xE0) * 4096 + (c.toNat - 0x80) * 64 + (d.toNat - 0x80)
        if isCont c && isCont d && decide (0x800 ≤ n) && decide n.isValidChar
        then some (Char.ofNat n, r) else none
      | _ => none
    else
      match r with
      | c :: d :: e :: r =>
        let n := (b.toNat - 0xF0) * 262144 + (c.toNat - 0x80) * 4096 + (d.toNat - 0x80) * 64
          + (e.toNat - 0x80)
        if isCont c && isCont d && isCont e && decide (0x10000 ≤ n) && decide n.isValidChar
        then some (Char.ofNat n, r) else none
      | _ => none

/-- Decoding, with a bound on the number of characters. -/
def unUtf8Aux : Nat → Bytes → Option Str
  | _, [] => some []
  | 0, _ :: _ => none
  | f + 1, b :: bs =>
    match unUtf8Char (b :: bs) with
    | none => none
    | some (c, r) => (unUtf8Aux f r).map (c :: ·)

/-- Decoding of a byte string, `none` if it is not UTF-8. -/
def unUtf8 (bs : Bytes) : Option Str := unUtf8Aux bs.length bs

/-! ## Printing -/

/-- A hexadecimal digit. -/
def hexDigit (n : Nat) : Char := if n < 10 then Char.ofNat (48 + n) else Char.ofNat (87 + n)

/-- A character inside a JSON string. -/
def escChar (c : Char) : Str :=
  if c = '"' then str!"\\\""
  else if c = '\\' then str!"\\\\"
  else if c = '\n' then str!"\\n"
  else if c = '\r' then str!"\\r"
  else if c = '\t' then str!"\\t"
  else if c.toNat = 8 then str!"\\b"
  else if c.toNat = 12 then str!"\\f"
  else if c.toNat < 32 then str!"\\u00" ++ [hexDigit (c.toNat / 16), hexDigit (c.toNat % 16)]
  else [c]

/-- A JSON string with its quotes. -/
def printStr (s : Str) : Str := '"' :: s.flatMap escChar ++ ['"']

/-- An integer. -/
def printInt (i : Int) : Str := if i < 0 then '-' :: dec i.natAbs else dec i.natAbs

mutual
/-- A JSON value. -/
def printJson : Json → Str
  | .null => str!"null"
  | .bool true => str!"true"
  | .bool false => str!"false"
  | .int i => printInt i
  | .float _ => str!"0.0"
  | .str s => printStr s
  | .arr [] => str!"[]"
  | .arr (x :: xs) => '[' :: (printJson x ++ printElems xs)
  | .obj [] => str!"{}"
  | .obj ((k, v) :: m) => '{' :: (printStr k ++ ':' :: printJson v ++ printMembers m)
/-- The elements after the first one, and the closing bracket. -/
def printElems : List Json → Str
  | [] => str!"]"
  | x :: xs => ',' :: (printJson x ++ printElems xs)
/-- The members after the first one, and the closing brace. -/
def printMembers : List (Str × Json) → Str
  | [] => str!"}"
  | (k, v) :: m => ',' :: (printStr k ++ ':' :: printJson v ++ printMembers m)
end

/-! ## Parsing -/

/-- Skip white space. -/
def skipWs : Str → Str
  | [] => []
  | c :: r => if c = ' ' ∨ c = '\n' ∨ c = '\r' ∨ c = '\t' then skipWs r else c :: r

/-- The value of a hexadecimal digit. -/
def hexVal (c : Char) : Option Nat :=
  if 48 ≤ c.toNat ∧ c.toNat ≤ 57 then some (c.toNat - 48)
  else if 97 ≤ c.toNat ∧ c.toNat ≤ 102 then some (c.toNat - 87)
  else if 65 ≤ c.toNat ∧ c.toNat ≤ 70 then some (c.toNat - 55)
  else none

/-- The character of a one-letter escape. -/
def unescape (c : Char) : Option Char :=
  if c = '"' then some '"'
  else if c = '\\' then some '\\'
  else if c = '/' then some '/'
  else if c = 'n' then some '\n'
  else if c = 'r' then some '\r'
  else if c = 't' then some '\t'
  else if c = 'b' then some (Char.ofNat 8)
  else if c = 'f' then some (Char.ofNat 12)
  else none

/-- The character of `\uXXXX`. -/
def unescapeU (a b c d : Char) : Option Char :=
  match hexVal a, hexVal b, hexVal c, hexVal d with
  | some a, some b, some c, some d =>
    let n := a * 4096 + b * 256 + c * 16 + d
    if n.isValidChar then some (Char.ofNat n) else none
  | _, _, _, _ => none

/-- One character of a string (after the opening quote), `none` at its end; with the rest. -/
def parseStrChar : Str → Option (Option Char × Str)
  | [] => none
  | c :: r =>
    if c = '"' then some (none, r)
    else if c = '\\' then
      match r with
      | 'u' :: a :: b :: c :: d :: r => (unescapeU a b c d).map fun x => (some x, r)
      | x :: r => (unescape x).map fun x => (some x, r)
      | [] => none
    else if c.toNat < 32 then none
    else some (some c, r)

/-- The rest of a string after its opening quote. -/
def parseStrAux : Nat → Str → Option (Str × Str)
  | 0, _ => none
  | f + 1, s =>
    match parseStrChar s with
    | none => none
    | some (none, r) => some ([], r)
    | some (some c, r) => (parseStrAux f r).map fun p => (c :: p.1, p.2)

/-- The rest of a string after its opening quote. -/
def parseStr (s : Str) : Option (Str × Str) := parseStrAux (s.length + 1) s

/-- A digit. -/
def isDigitChar (c : Char) : Bool := 48 ≤ c.toNat && c.toNat ≤ 57

/-- A natural number, not followed by a fraction or an exponent. -/
def parseNat (s : Str) : Option (Nat × Str) :=
  let ds := s.takeWhile isDigitChar
  let r := s.dropWhile isDigitChar
  if ds.isEmpty then none
  else if r.head? = some '.' ∨ r.head? = some 'e' ∨ r.head? = some 'E' then none
  else (parseDigits 0 ds).map (·, r)

/-- An integer in the range of `serde_json::Number`. -/
def parseInt (s : Str) : Option (Int × Str) :=
  match s with
  | [] => none
  | c :: r =>
    if c = '-' then
      match parseNat r with
      | some (n, r) => if n ≤ 2 ^ 63 then some (-(n : Int), r) else none
      | none => none
    else
      match parseNat (c :: r) with
      | some (n, r) => if n < 2 ^ 64 then some ((n : Int), r) else none
      | none => none

/-- Expect a literal. -/
def expect (lit s : Str) : Option Str := if lit.isPrefixOf s then some (s.drop lit.length) else none

mutual
/-- A JSON value at the beginning of a text. -/
def parseValue : Nat → Str → Option (Json × Str)
  | 0, _ => none
  | f + 1, s =>
    match skipWs s with
    | [] => none
    | c :: r =>
      if c = 'n' then (expect str!"ull" r).map fun r => (.null, r)
      else if c = 't' then (expect str!"rue" r).map fun r => (.bool true, r)
      else if c = 'f' then (expect str!"alse" r).map fun r => (.bool false, r)
      else if c = '"' then (parseStr r).map fun p => (.str p.1, p.2)
      else if c = '[' then
        match skipWs r with
        | ']' :: r => some (.arr [], r)
        | _ =>
          match parseValue f r with
          | none => none
          | some (v, r) => (parseElems f r).map fun p => (.arr (v :: p.1), p.2)
      else if c = '{' then
        match skipWs r with
        | '}' :: r => some (.obj [], r)
        | _ =>
          match parseMember f r with
          | none => none
          | some (kv, r) => (parseMembers f r).map fun p => (.obj (kv :: p.1), p.2)
      else (parseInt (c :: r)).map fun p => (.int p.1, p.2)
/-- The elements after the first one. -/
def parseElems : Nat → Str → Option (List Json × Str)
  | 0, _ => none
  | f + 1, s =>
    match skipWs s with
    | [] => none
    | c :: r =>
      if c = ']' then some ([], r)
      else if c = ',' then
        match parseValue f r with
        | none => none
        | some (v, r) => (parseElems f r).map fun p => (v :: p.1, p.2)
      else none
/-- A key and its value. -/
def parseMember : Nat → Str → Option ((Str × Json) × Str)
  | 0, _ => none
  | f + 1, s =>
    match skipWs s with
    | [] => none
    | c :: r =>
      if c = '"' then
        match parseStr r with
        | none => none
        | some (k, r) =>
          match skipWs r with
          | [] => none
          | c :: r =>
            if c = ':' then (parseValue f r).map fun p => ((k, p.1), p.2) else none
      else none
/-- The members after the first one. -/
def parseMembers : Nat → Str → Option (List (Str × Json) × Str)
  | 0, _ => none
  | f + 1, s =>
    match skipWs s with
    | [] => none
    | c :: r =>
      if c = '}' then some ([], r)
      else if c = ',' then
        match parseMember f r with
        | none => none
        | some (kv, r) => (parseMembers f r).map fun p => (kv :: p.1, p.2)
      else none
end

/-- A whole document: a value and nothing but white space after it. -/
def parseDoc (s : Str) : Option Json :=
  match parseValue (s.length + 1) s with
  | some (j, r) => if (skipWs r).isEmpty then some j else none
  | none => none

/-- The concrete text form. -/
def jsonText : JsonText where
  floats := fun _ => false
  print j := utf8 (printJson j)
  raw b := ((unUtf8 b).bind parseDoc).filter (Json.within 127)

end Zarr
