import Verif.Core.Num

/-!
# The tool `oura-block-fetcher`

Models the filter and the loop of `/repo/cardano-cli-tools/oura-block-fetcher/src/main.rs`. The source of events (the library
`oura`: connection, chain synchronisation, decoding) is not part of `/repo`; here it is the list of events it sends.
-/

namespace Verif.Sources.BlockFetcher

open Verif.Core

/-- What the tool looks at of a block record; the library has no `cbor_hex` if it was not asked for it. -/
structure Rec where
  number : U64
  hash : List Char
  slot : U64
  cbor : Option (List Char)
deriving DecidableEq

/-- Events of the library. A rollback names the block that is the last one now. -/
inductive Ev where
  | block (r : Rec)
  | rollback (slot : U64) (hash : List Char)
  | other
deriving DecidableEq

/-- The filter, main.rs:112-119: `Predicate::VariantIn(["Block", "Rollback"])`. -/
def selected : Ev → Bool
  | .other => false
  | _ => true

/-- The line printed for a block, main.rs:128-131. -/
def line (number : U64) (hash : List Char) (slot : U64) (cbor : List Char) : List Char :=
  "Block #".toList ++ (number.display ++ ", point: ".toList ++ (hash ++ '@' :: (slot.display ++ (", raw cbor hex: ".toList ++ cbor))))

/-- The loop, main.rs:123-133: the lines printed, and whether it ended with the error. -/
def loop : List Ev → List (List Char) × Bool
  | [] => ([], false)
  | .block r :: es =>
    match r.cbor with
    | none => ([], true)
    | some c => (line r.number r.hash r.slot c :: (loop es).1, (loop es).2)
  | _ :: es => loop es

/-- `main` after the source has been set up, main.rs:112-135. -/
def tool (es : List Ev) : List (List Char) × Bool := loop (es.filter selected)

end Verif.Sources.BlockFetcher
