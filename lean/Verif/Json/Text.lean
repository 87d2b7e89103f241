import Verif.Core.Num

/-!
# JSON text

The documents of the repository are written by `serde_json::to_vec`/`to_string` and read by
`serde_json::from_slice`/`from_str` (multiverse/src/lib.rs:210,298, cardano-utils/src/utxo.rs:45,
core/src/tx). The library is not part of `/repo`; this file is the contract assumed of its compact
writer and of its reader (RFC 8259, no trailing characters). A number that is not an integer of 64
bits is kept as its text: its value is a floating point number, which is not modelled.
-/

namespace Verif.Json

/-- A string; Rust's `char` and Lean's are both the Unicode scalar values. -/
abbrev Str := List Char

/-- A JSON document. Members of an object are in document order and may repeat. -/
inductive Doc where
  | null
  | bool (b : Bool)
  | int (n : Int)
  | float (lit : Str)
  | str (s : Str)
  | arr (l : List Doc)
  | obj (m : List (Str × Doc))

open Verif.Core

/-! ## Writer -/

/-- A hexadecimal digit in lower case. -/
def hexDigit (n : Nat) : Char := if n < 10 then Char.ofNat (48 + n) else Char.ofNat (87 + n)

/-- A character inside a string: `"`, `\` and control characters are escaped, the rest is copied. -/
def writeChar (c : Char) : Str :=
  if c = '"' then ['\\', '"']
  else if c = '\\' then ['\\', '\\']
  else if c = '\n' then ['\\', 'n']
  else if c = '\r' then ['\\', 'r']
  else if c = '\t' then ['\\', 't']
  else if c = Char.ofNat 8 then ['\\', 'b']
  else if c = Char.ofNat 12 then ['\\', 'f']
  else if c.toNat < 32 then ['\\', 'u', '0', '0', hexDigit (c.toNat / 16), hexDigit (c.toNat % 16)]
  else [c]

/-- The characters of a string and the closing quote. -/
def writeChars : Str → Str
  | [] => ['"']
  | c :: cs => writeChar c ++ writeChars cs

/-- A string in quotes. -/
def writeStr (s : Str) : Str := '"' :: writeChars s

/-- An integer. -/
def writeInt (n : Int) : Str := if n < 0 then '-' :: showNat n.natAbs else showNat n.natAbs

mutual
/-- A document, without white space. -/
def write : Doc → Str
  | .null => ['n', 'u', 'l', 'l']
  | .bool true => ['t', 'r', 'u', 'e']
  | .bool false => ['f', 'a', 'l', 's', 'e']
  | .int n => writeInt n
  | .float lit => lit
  | .str s => writeStr s
  | .arr [] => ['[', ']']
  | .arr (d :: l) => '[' :: (write d ++ writeElems l)
  | .obj [] => ['{', '}']
  | .obj ((k, d) :: m) => '{' :: (writeStr k ++ ':' :: (write d ++ writeMembers m))
/-- The elements after the first one and the closing bracket. -/
def writeElems : List Doc → Str
  | [] => [']']
  | d :: l => ',' :: (write d ++ writeElems l)
/-- The members after the first one and the closing brace. -/
def writeMembers : List (Str × Doc) → Str
  | [] => ['}']
  | (k, d) :: m => ',' :: (writeStr k ++ ':' :: (write d ++ writeMembers m))
end

/-! ## Reader -/

/-- White space of JSON. -/
def isWs (c : Char) : Bool := c = ' ' || c = '\n' || c = '\t' || c = '\r'

/-- Skips white space. -/
def skip (cs : Str) : Str := cs.dropWhile isWs

/-- The value of a hexadecimal digit of either case. -/
def unhex (c : Char) : Option Nat :=
  if 48 ≤ c.toNat ∧ c.toNat ≤ 57 then some (c.toNat - 48)
  else if 97 ≤ c.toNat ∧ c.toNat ≤ 102 then some (c.toNat - 87)
  else if 65 ≤ c.toNat ∧ c.toNat ≤ 70 then some (c.toNat - 55)
  else none

/-- Four hexadecimal digits. -/
def unhex4 (a b c d : Char) : Option Nat := do
  let a ← unhex a
  let b ← unhex b
  let c ← unhex c
  let d ← unhex d
  return ((a * 16 + b) * 16 + c) * 16 + d

/-- A single-character escape. -/
def unescape (c : Char) : Option Char :=
  if c = '"' then some '"'
  else if c = '\\' then some '\\'
  else if c = '/' then some '/'
  else if c = 'n' then some '\n'
  else if c = 'r' then some '\r'
  else if c = 't' then some '\t'
  else if c = 'b' then some (Char.ofNat 8)
  else if c = 'f' then some (Char.ofNat 12)
  else none

/-- Puts a character in front of what is read after it. -/
def consChar (c : Char) (r : Option (Str × Str)) : Option (Str × Str) :=
  r.map fun p => (c :: p.1, p.2)

/-- Leading surrogates. -/
def isLead (n : Nat) : Bool := 0xD800 ≤ n && n < 0xDC00
/-- Trailing surrogates. -/
def isTrail (n : Nat) : Bool := 0xDC00 ≤ n && n < 0xE000

/-- The rest of a string after its opening quote, and what follows it. Characters outside the first
plane may be escaped as a pair of surrogates; a surrogate alone and a raw control character are
errors. -/
def readChars : Str → Option (Str × Str)
  | '"' :: cs => some ([], cs)
  | '\\' :: 'u' :: a :: b :: c :: d :: '\\' :: 'u' :: e :: f :: g :: h :: cs =>
    match unhex4 a b c d with
    | none => none
    | some n =>
      if isLead n then
        match unhex4 e f g h with
        | none => none
        | some m =>
          if isTrail m then
            consChar (Char.ofNat (0x10000 + (n - 0xD800) * 0x400 + (m - 0xDC00))) (readChars cs)
          else none
      else if isTrail n then none
      else consChar (Char.ofNat n) (readChars ('\\' :: 'u' :: e :: f :: g :: h :: cs))
  | '\\' :: 'u' :: a :: b :: c :: d :: cs =>
    match unhex4 a b c d with
    | none => none
    | some n => if isLead n || isTrail n then none else consChar (Char.ofNat n) (readChars cs)
  | '\\' :: c :: cs =>
    match unescape c with
    | none => none
    | some c => consChar c (readChars cs)
  | c :: cs => if c = '\\' ∨ c.toNat < 32 then none else consChar c (readChars cs)
  | [] => none

/-- Decimal digits. -/
def isDigit (c : Char) : Bool := 48 ≤ c.toNat && c.toNat ≤ 57

/-- Value of digits. -/
def digitsVal (ds : Str) : Nat := ds.foldl (fun a c => a * 10 + (c.toNat - 48)) 0

/-- The exponent of a number literal, if there is one: the characters read and the rest. -/
def readExp : Str → Option (Str × Str)
  | c :: cs =>
    if c = 'e' ∨ c = 'E' then
      match cs with
      | s :: rest =>
        let sign := if s = '+' ∨ s = '-' then [s] else []
        let body := if s = '+' ∨ s = '-' then rest else s :: rest
        let ds := body.takeWhile isDigit
        if ds = [] then none else some (c :: (sign ++ ds), body.dropWhile isDigit)
      | [] => none
    else some ([], c :: cs)
  | [] => some ([], [])

/-- Fraction and exponent of a number literal. -/
def readFrac : Str → Option (Str × Str)
  | '.' :: cs =>
    let ds := cs.takeWhile isDigit
    if ds = [] then none
    else (readExp (cs.dropWhile isDigit)).map fun p => ('.' :: (ds ++ p.1), p.2)
  | cs => readExp cs

/-- A number: an integer of 64 bits (unsigned, or signed if negative) without fraction and exponent;
otherwise, and for `-0`, floating point. -/
def readNum (neg : Bool) (cs : Str) : Option (Doc × Str) :=
  let ds := cs.takeWhile isDigit
  let rest := cs.dropWhile isDigit
  if ds = [] ∨ (ds.head? = some '0' ∧ 1 < ds.length) then none
  else
    match readFrac rest with
    | none => none
    | some (frac, rest') =>
      let lit := (if neg then ['-'] else []) ++ ds ++ frac
      let v := digitsVal ds
      if frac = [] ∧ neg = false ∧ v < 2 ^ 64 then some (.int v, rest')
      else if frac = [] ∧ neg = true ∧ 0 < v ∧ v ≤ 2 ^ 63 then some (.int (-v), rest')
      else some (.float lit, rest')

mutual
/-- A value and what follows it. `fuel` bounds the number of values read. -/
def readValue : Nat → Str → Option (Doc × Str)
  | 0, _ => none
  | fuel + 1, cs =>
    match skip cs with
    | 'n' :: 'u' :: 'l' :: 'l' :: cs => some (.null, cs)
    | 't' :: 'r' :: 'u' :: 'e' :: cs => some (.bool true, cs)
    | 'f' :: 'a' :: 'l' :: 's' :: 'e' :: cs => some (.bool false, cs)
    | '"' :: cs => (readChars cs).map fun p => (.str p.1, p.2)
    | '-' :: cs => readNum true cs
    | '[' :: cs =>
      match skip cs with
      | ']' :: cs => some (.arr [], cs)
      | cs => (readElems fuel cs).map fun p => (.arr p.1, p.2)
    | '{' :: cs =>
      match skip cs with
      | '}' :: cs => some (.obj [], cs)
      | cs => (readMembers fuel cs).map fun p => (.obj p.1, p.2)
    | cs => readNum false cs
/-- The elements of an array that is not empty, and what follows the closing bracket. -/
def readElems : Nat → Str → Option (List Doc × Str)
  | 0, _ => none
  | fuel + 1, cs =>
    match readValue fuel cs with
    | none => none
    | some (d, cs) =>
      match skip cs with
      | ',' :: cs => (readElems fuel cs).map fun p => (d :: p.1, p.2)
      | ']' :: cs => some ([d], cs)
      | _ => none
/-- The members of an object that is not empty, and what follows the closing brace. -/
def readMembers : Nat → Str → Option (List (Str × Doc) × Str)
  | 0, _ => none
  | fuel + 1, cs =>
    match skip cs with
    | '"' :: cs =>
      match readChars cs with
      | none => none
      | some (k, cs) =>
        match skip cs with
        | ':' :: cs =>
          match readValue fuel cs with
          | none => none
          | some (d, cs) =>
            match skip cs with
            | ',' :: cs => (readMembers fuel cs).map fun p => ((k, d) :: p.1, p.2)
            | '}' :: cs => some ([(k, d)], cs)
            | _ => none
        | _ => none
    | _ => none
end

/-- `from_str`: one value and nothing but white space after it. Every value takes at least one
character, and each list one more step, so twice the length is enough. -/
def readDoc (cs : Str) : Option Doc :=
  match readValue (2 * cs.length + 2) cs with
  | some (d, rest) => if skip rest = [] then some d else none
  | none => none

end Verif.Json
