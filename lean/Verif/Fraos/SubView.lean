import Verif.Fraos.Growable

/-!
# Sub-views of a mapped view

Models `SharedMmap::slice` (`/repo/fraos/src/shared_mmap.rs:37-78`) for every kind of range.
-/

namespace Verif.Fraos

/-- `std::ops::Bound<usize>`, the ends of a `RangeBounds<usize>`, as matched at shared_mmap.rs:44-48 and
shared_mmap.rs:57-67. -/
inductive RangeEnd where
  | included (n : Nat)
  | excluded (n : Nat)
  | unbounded
deriving DecidableEq

/-- The start of the range, shared_mmap.rs:44-48. `start + 1` is `usize` arithmetic. -/
def RangeEnd.first (p : Params) : RangeEnd → Except Err Nat
  | .included n => .ok n
  | .excluded n => usize p (n + 1)
  | .unbounded => .ok 0

/-- The last index of the range, shared_mmap.rs:57-67; `none` is the early return of an empty view. -/
def RangeEnd.last (len : Nat) : RangeEnd → Option Nat
  | .included n => some n
  | .excluded n => if n = 0 then none else some (n - 1)
  | .unbounded => some (len - 1)

/-- `SharedMmap::slice`, shared_mmap.rs:37-78. The pointer of the view is its offset `start` in the mapping. -/
def View.sliceRange (p : Params) (v : View) (lo hi : RangeEnd) : Except Err View :=
  if v.len = 0 then .ok { v with len := 0 }
  else
    match lo.first p with
    | .error e => .error e
    | .ok a =>
      if a ≥ v.len then .ok { v with len := 0 }
      else
        match hi.last v.len with
        | none => .ok { v with len := 0 }
        | some z =>
          let e := min z (v.len - 1)
          .ok { v with start := v.start + a, len := if a ≤ e then e - a + 1 else 0 }

/-- `SharedMmap::as_ref`, shared_mmap.rs:80-94: the bytes of a view. -/
def GM.viewBytes (g : GM) (v : View) : Except Err (List UInt8) := g.load v.mem v.start v.len

end Verif.Fraos
