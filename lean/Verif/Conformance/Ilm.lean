import Verif.Ilm.Cbor

/-!
# A test of the indexed log map, run on the model

`test_serde` of `/repo/indexed-log-map/src/storage.rs:218-283` with fewer items and one thread (the threads only read). A test
of the model, not a theorem about it.
-/

namespace Verif.Conformance.Ilm

open Verif.Fraos Verif.Ilm

/-- The map with `n` items, storage.rs:227-233. -/
def filled (n : Nat) : Except MErr ILM :=
  match fresh .code true true with
  | .error e => .error (.storage e)
  | .ok m => (List.range n).foldlM (fun m i => match append .code cborCodec m i i with
    | (.error e, _) => .error e
    | (.ok _, m) => .ok m) m

/-- What an iterator at `pos` delivers until it ends. -/
def rest (m : ILM) : Nat → Nat → List (Option Nat)
  | 0, _ => []
  | n + 1, pos =>
    match next .code cborCodec m pos with
    | (none, _) => []
    | (some (.ok v), pos) => some v :: rest m n pos
    | (some (.error _), pos) => none :: rest m n pos

/-- What is checked for a key `i` of `n`, storage.rs:244-276. -/
def checked (n i : Nat) (m : ILM) : Bool :=
  decide ((get .code cborCodec m i).toOption = some (some i)) && decide ((contains .code cborCodec m i).toOption = some true) &&
    decide ((contains .code cborCodec m (i + n)).toOption = some false) &&
    (match iterFrom cborCodec m i with
    | .ok (some pos) => decide (rest m (n + 1) pos = ((List.range n).drop i).map some)
    | _ => false)

/-- `test_serde`, storage.rs:218-283, for 40 items. -/
example : (match filled 40 with
    | .ok m => [0, 10, 20, 30, 39, 1].all (fun i => checked 40 i m)
    | .error _ => false) = true := by decide +kernel

end Verif.Conformance.Ilm
