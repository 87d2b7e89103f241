import Mathlib.Tactic.Common
import Mathlib.Order.Basic

/-!
# Slots, epochs and timestamps

Models `/repo/blockchain-source/src/cardano/time.rs`. Numbers are `u64`. With overflow checks (debug
builds) an overflow or a division by zero is a panic; `computeTimestampWrap` is the arithmetic without
overflow checks (release builds).
-/

namespace Verif.Sources

/-- `Era`, time.rs:4-11. -/
structure Era where
  firstSlot : Nat
  startEpoch : Nat
  knownTime : Nat
  slotLength : Nat
  epochLengthSeconds : Nat
deriving DecidableEq

/-- All fields are 64-bit. -/
def Era.Fits (e : Era) : Prop :=
  e.firstSlot < 2 ^ 64 ∧ e.startEpoch < 2 ^ 64 ∧ e.knownTime < 2 ^ 64 ∧ e.slotLength < 2 ^ 64 ∧
    e.epochLengthSeconds < 2 ^ 64

/-- A panic: overflow, underflow, or division by zero. -/
inductive TimeErr where
  | panic
deriving DecidableEq

/-- The result of an operation on `u64` with overflow checks. -/
def u64 (n : Nat) : Except TimeErr Nat := if n < 2 ^ 64 then .ok n else .error .panic

/-- `SHELLEY_MAINNET`, time.rs:14-20. -/
def shelleyMainnet : Era := ⟨4492800, 208, 1596059091, 1, 432000⟩
/-- `SHELLEY_TESTNET`, time.rs:22-28. -/
def shelleyTestnet : Era := ⟨1598400, 74, 1595967616, 1, 432000⟩
/-- `SHELLEY_PREPROD`, time.rs:30-36. -/
def shelleyPreprod : Era := ⟨86400, 4, 1655769600, 1, 432000⟩
/-- `SHELLEY_PREVIEW`, time.rs:38-44. -/
def shelleyPreview : Era := ⟨0, 0, 1666656000, 1, 86400⟩
/-- `SHELLEY_SANCHO`, time.rs:46-52. -/
def shelleySancho : Era := ⟨0, 0, 1686789000, 1, 86400⟩

/-- The configurations of the library. -/
def presets : List Era := [shelleyMainnet, shelleyTestnet, shelleyPreprod, shelleyPreview, shelleySancho]

/-- `compute_timestamp`, time.rs:54-56, with overflow checks. -/
def computeTimestamp (e : Era) (slot : Nat) : Except TimeErr Nat :=
  if slot < e.firstSlot then .error .panic
  else
    match u64 ((slot - e.firstSlot) * e.slotLength) with
    | .error x => .error x
    | .ok d => u64 (e.knownTime + d)

/-- `compute_timestamp` without overflow checks. -/
def computeTimestampWrap (e : Era) (slot : Nat) : Nat :=
  (e.knownTime + ((slot + (2 ^ 64 - e.firstSlot)) % 2 ^ 64 * e.slotLength) % 2 ^ 64) % 2 ^ 64

/-- `absolute_slot_to_epoch`, time.rs:58-63. -/
def absoluteSlotToEpoch (e : Era) (slot : Nat) : Except TimeErr (Option Nat) :=
  if slot < e.firstSlot then .ok none
  else if e.epochLengthSeconds = 0 then .error .panic
  else (u64 (e.startEpoch + (slot - e.firstSlot) / e.epochLengthSeconds)).map some

/-- `absolute_slot_to_relative`, time.rs:65-68. -/
def absoluteSlotToRelative (e : Era) (slot : Nat) : Except TimeErr (Option Nat) :=
  if slot < e.firstSlot then .ok none
  else if e.epochLengthSeconds = 0 then .error .panic
  else .ok (some ((slot - e.firstSlot) % e.epochLengthSeconds))

/-- `epoch_slot_to_absolute_byron`, time.rs:71-74. -/
def byronAbsolute (epoch slot : Nat) : Except TimeErr Nat :=
  match u64 (epoch * (432000 / 20)) with
  | .error x => .error x
  | .ok a => u64 (a + slot)

end Verif.Sources
