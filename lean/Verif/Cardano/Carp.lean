import Verif.Cardano.Address
import Verif.Json.Types

/-!
# What `cip1852-first-address` sends and reads

Models the requests and answers of `/repo/cardano-cli-tools/cip1852-first-address/src/main.rs:66-133` as text. The
library `miniserde` is assumed to write documents without white space and to read the same texts as `serde_json`, without
limit of nesting; what it derives for a structure reads an object, ignores members it does not know, refuses a missing one,
and when one is given several times reads all of them and keeps the last.
-/

namespace Verif.Cardano.FirstAddress

open Verif.Core Verif.Json

/-- A member of a structure, as `miniserde` derives it. -/
def member {α : Type} (f : Doc → Option α) (k : Str) (m : List (Str × Doc)) : Option α :=
  match (m.filter (fun p => p.1 == k)).mapM (fun p => f p.2) with
  | some l => l.getLast?
  | none => none

/-- `BlockLatestResponseBlock`, main.rs:158-165: the hash; the numbers have to be there. -/
def readBlock : Doc → Option Str
  | .obj m => do
    let _ ← member readU64 (key! "era") m
    let hash ← member readText (key! "hash") m
    let _ ← member readU64 (key! "height") m
    let _ ← member readU64 (key! "epoch") m
    let _ ← member readU64 (key! "slot") m
    some hash
  | _ => none

/-- `BlockLatestResponse`, main.rs:153-156, from a text (main.rs:105-107). -/
def readLatestText (t : Str) : Option Str :=
  match readDoc t with
  | some (.obj m) => member readBlock (key! "block") m
  | _ => none

/-- `AddressUsedResult`, main.rs:148-151, from a text (main.rs:123-124). -/
def readUsedText (t : Str) : Option (List Str) :=
  match readDoc t with
  | some (.obj m) => member (readVec readText) (key! "addresses") m
  | _ => none

/-- `Display` of `NetworkId`, main.rs:36-45. -/
def Net.name : Net → Str
  | .testnet => key! "testnet"
  | .mainnet => key! "mainnet"

/-- The address of a request, main.rs:66, 99 and 110. -/
def Query.url : Query → Str
  | .latest net => key! "https://gate.flint-wallet.com/" ++ net.name ++ key! "/carp" ++ key! "/block/latest"
  | .used net _ _ => key! "https://gate.flint-wallet.com/" ++ net.name ++ key! "/carp" ++ key! "/address/used"

/-- The body of a request, main.rs:101 and 112-115 with 135-140. -/
def Query.body : Query → Str
  | .latest _ => key! "{\"offset\": 0}"
  | .used _ addresses untilBlock =>
    write (.obj [(key! "addresses", .arr (addresses.map Doc.str)), (key! "untilBlock", .str untilBlock)])

/-- The outside of the tool when the backend is a server that is sent bodies to addresses (`post`). -/
def World.online (derive : Bytes → Nat → Option Bytes) (keyHash : Bytes → Hash28) (post : Str → Str → Reply) : World where
  derive := derive
  keyHash := keyHash
  backend q := post q.url q.body
  readLatest := readLatestText
  readUsed := readUsedText

end Verif.Cardano.FirstAddress
