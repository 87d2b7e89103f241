import Verif.Cardano.Fingerprint
import Mathlib.Tactic.Ring

/-!
# Bech32 text

Addresses are written with `Address::to_bech32` and read with `Address::from_bech32`
(`/repo/cardano-utils/src/utxo.rs:32,90,213,246`,
`/repo/cardano-cli-tools/cip1852-first-address/src/main.rs:93,113`). Both are functions of the ledger library, which uses the
`bech32` crate (0.7); neither is part of `/repo`. The format is written out here, as that crate has it.
-/

namespace Verif.Cardano.Bech32

/-! ### The checksum -/

/-- `polymod` of the crate without the new value: shift, and reduce by the generator. -/
def mix (c : BitVec 32) : BitVec 32 :=
  ((c &&& 0x1ffffff#32) <<< 5) ^^^ (if c.getLsbD 25 then 0x3b6a57b2#32 else 0#32) ^^^
    (if c.getLsbD 26 then 0x26508e6d#32 else 0#32) ^^^ (if c.getLsbD 27 then 0x1ea119fa#32 else 0#32) ^^^
    (if c.getLsbD 28 then 0x3d4233dd#32 else 0#32) ^^^ (if c.getLsbD 29 then 0x2a1462b3#32 else 0#32)

/-- The loop of `polymod`. -/
def run (c : BitVec 32) (vs : List (BitVec 32)) : BitVec 32 := vs.foldl (fun c v => mix c ^^^ v) c

/-- A group of five bits as a word. -/
def word (v : Fin 32) : BitVec 32 := BitVec.ofNat 32 v

/-- `hrp_expand`: the high bits of the characters, a zero, the low bits. -/
def expand (hrp : List Char) : List (BitVec 32) :=
  hrp.map (fun c => BitVec.ofNat 32 (c.toNat / 32)) ++ 0#32 :: hrp.map (fun c => BitVec.ofNat 32 (c.toNat % 32))

/-- `polymod` of prefix and data. -/
def polymod (hrp : List Char) (vs : List (Fin 32)) : BitVec 32 := run 1#32 (expand hrp ++ vs.map word)

/-- The group number `i` of six groups of five bits. -/
def group (p : BitVec 32) (i : Nat) : Fin 32 := ⟨p.toNat / 2 ^ (5 * (5 - i)) % 32, Nat.mod_lt _ (by decide)⟩

/-- `create_checksum`. -/
def checksum (hrp : List Char) (vs : List (Fin 32)) : List (Fin 32) :=
  let p := polymod hrp (vs ++ List.replicate 6 0) ^^^ 1#32
  (List.range 6).map (group p)

/-! ### Bytes in groups of five bits -/

/-- The bits of a byte, the highest first. -/
def bits (n : Nat) : Nat → List Bool
  | 0 => []
  | k + 1 => n.testBit k :: bits n k

/-- The number with these bits. -/
def ofBits (l : List Bool) : Nat := l.foldl (fun n b => 2 * n + b.toNat) 0

theorem ofBits_lt (l : List Bool) : ofBits l < 2 ^ l.length := by
  unfold ofBits
  have : ∀ (l : List Bool) (n k : Nat), n < 2 ^ k → l.foldl (fun n b => 2 * n + b.toNat) n < 2 ^ (k + l.length) := by
    intro l
    induction l with
    | nil => intro n k h; simpa using h
    | cons b l ih =>
      intro n k h
      have := ih (2 * n + b.toNat) (k + 1) (by
        have : b.toNat ≤ 1 := Bool.toNat_le b
        rw [pow_succ]; omega)
      rw [List.foldl_cons, List.length_cons, show k + (l.length + 1) = k + 1 + l.length by omega]
      exact this
  simpa using this l 0 0 (by simp)

/-- `to_base32`: the bits in groups of five, the last filled up with zeros. -/
def groups : List Bool → List (Fin 32)
  | a :: b :: c :: d :: e :: t => ⟨ofBits [a, b, c, d, e], ofBits_lt [a, b, c, d, e]⟩ :: groups t
  | [a, b, c, d] => [⟨ofBits [a, b, c, d, false], ofBits_lt [a, b, c, d, false]⟩]
  | [a, b, c] => [⟨ofBits [a, b, c, false, false], ofBits_lt [a, b, c, false, false]⟩]
  | [a, b] => [⟨ofBits [a, b, false, false, false], ofBits_lt [a, b, false, false, false]⟩]
  | [a] => [⟨ofBits [a, false, false, false, false], ofBits_lt [a, false, false, false, false]⟩]
  | [] => []

def toBase32 (b : Bytes) : List (Fin 32) := groups (b.flatMap (fun x => bits x.toNat 8))

/-- The bits in bytes; at most four are left over, and they are zeros. -/
def octets : List Bool → Option Bytes
  | a :: b :: c :: d :: e :: f :: g :: h :: t =>
    (octets t).map (UInt8.ofNat (ofBits [a, b, c, d, e, f, g, h]) :: ·)
  | l => if l.length ≤ 4 ∧ l.all (!·) then some [] else none

/-- `from_base32`. -/
def fromBase32 (vs : List (Fin 32)) : Option Bytes := octets (vs.flatMap (fun v => bits v.val 5))

/-! ### The text -/

/-- `CHARSET`. -/
def charset : List Char := "qpzry9x8gf2tvdw0s3jn54khce6mua7l".toList

theorem charset_length : charset.length = 32 := by decide

/-- The character of a group. -/
def letter (v : Fin 32) : Char := charset[v.val]'(by rw [charset_length]; exact v.isLt)

def isUpper (c : Char) : Bool := decide (65 ≤ c.toNat ∧ c.toNat ≤ 90)
def isLower (c : Char) : Bool := decide (97 ≤ c.toNat ∧ c.toNat ≤ 122)

/-- `to_lowercase` of ASCII characters. -/
def lower (c : Char) : Char := if isUpper c then Char.ofNat (c.toNat + 32) else c

/-- `CHARSET_REV`: the value of a character in either case. -/
def value (c : Char) : Option (Fin 32) :=
  if h : lower c ∈ charset then
    some ⟨charset.idxOf (lower c), by rw [← charset_length]; exact List.idxOf_lt_length_iff.mpr h⟩
  else none

/-- `check_hrp` for text in one case: length and range. -/
def prefixOk (hrp : List Char) : Bool :=
  !hrp.isEmpty && decide (hrp.length ≤ 83) && hrp.all (fun c => decide (33 ≤ c.toNat ∧ c.toNat ≤ 126))

/-- Upper and lower case are not mixed. -/
def oneCase (s : List Char) : Bool := !(s.any isUpper && s.any isLower)

/-- `bech32::encode`. -/
def encode (hrp : List Char) (vs : List (Fin 32)) : Option (List Char) :=
  if prefixOk hrp && oneCase hrp then
    some (hrp.map lower ++ '1' :: ((vs ++ checksum (hrp.map lower) vs).map letter))
  else none

/-- `rfind` of the separator. -/
def splitLast : List Char → Option (List Char × List Char)
  | [] => none
  | c :: s =>
    match splitLast s with
    | some (a, b) => some (c :: a, b)
    | none => if c = '1' then some ([], s) else none

/-- `bech32::decode`. Its test of the whole length follows from those of the parts. -/
def decode (s : List Char) : Option (List Char × List (Fin 32)) :=
  match splitLast s with
  | none => none
  | some (hrp, data) =>
    if prefixOk hrp && oneCase (hrp ++ data) && decide (6 ≤ data.length) then
      match data.mapM value with
      | none => none
      | some vs =>
        if polymod (hrp.map lower) vs = 1#32 then some (hrp.map lower, vs.take (vs.length - 6)) else none
    else none

end Verif.Cardano.Bech32
