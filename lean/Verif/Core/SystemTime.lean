import Verif.Core.Num

/-!
# Timestamps as system time

Models `Timestamp::into_unix_time`, `/repo/core/src/timestamp.rs:33-44`. `SystemTime` is that of Linux: seconds, a signed
number of 64 bits, and nanoseconds below 10^9 since the UNIX epoch.
-/

namespace Verif.Core

/-- `std::time::SystemTime` on Linux. -/
structure SystemTime where
  secs : Int
  nanos : Nat
deriving DecidableEq

/-- `SystemTime::UNIX_EPOCH`. -/
def SystemTime.unixEpoch : SystemTime := ⟨0, 0⟩

/-- `SystemTime + Duration`: the nanoseconds carry into the seconds; seconds of more than 64 bits panic (`none`). -/
def SystemTime.add (s : SystemTime) (secs nanos : Nat) : Option SystemTime :=
  let n := s.nanos + nanos
  let t := s.secs + secs + (if n < 1000000000 then 0 else 1)
  if t < 2 ^ 63 then some ⟨t, if n < 1000000000 then n else n - 1000000000⟩ else none

/-- `into_unix_time`, timestamp.rs:41-44: `UNIX_EPOCH + Duration::from_secs`; `none` is a panic. -/
def U64.intoUnixTime (t : U64) : Option SystemTime := SystemTime.unixEpoch.add t.val 0

/-- `SystemTime::duration_since(UNIX_EPOCH)`: seconds and nanoseconds, nothing for earlier times. -/
def SystemTime.sinceEpoch (s : SystemTime) : Option (Nat × Nat) :=
  if 0 ≤ s.secs then some (s.secs.toNat, s.nanos) else none

/-- The derived order of `SystemTime`. -/
def SystemTime.before (a b : SystemTime) : Prop := a.secs < b.secs ∨ (a.secs = b.secs ∧ a.nanos < b.nanos)

end Verif.Core
