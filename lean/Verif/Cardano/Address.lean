import Verif.Cardano.Bech32

/-!
# Addresses, and the tool `cip1852-first-address`

Models `/repo/cardano-cli-tools/cip1852-first-address/src/main.rs` and the addresses that
`/repo/cardano-utils/src/utxo.rs` writes and reads. Addresses are those of the ledger library, written out here; Byron
addresses are left out.
-/

namespace Verif.Cardano

/-- A hash of 28 bytes. -/
abbrev Hash28 := {h : Bytes // h.length = 28}

/-- `StakeCredential` of the library. -/
inductive Cred where
  | key (h : Hash28)
  | script (h : Hash28)
deriving DecidableEq

/-- Base, pointer, enterprise and reward addresses of the library; the network is the low half of a byte. A pointer says where
the stake key was registered: slot, transaction and certificate. -/
inductive Addr where
  | base (network : Fin 16) (payment stake : Cred)
  | pointer (network : Fin 16) (payment : Cred) (slot tx cert : Fin (2 ^ 64))
  | enterprise (network : Fin 16) (payment : Cred)
  | reward (network : Fin 16) (payment : Cred)
deriving DecidableEq

def Cred.hash : Cred → Bytes
  | .key h => h.val
  | .script h => h.val

/-- `kind`: 0 for a key, 1 for a script. -/
def Cred.kind : Cred → Nat
  | .key _ => 0
  | .script _ => 1

def Addr.network : Addr → Fin 16
  | .base n _ _ => n
  | .pointer n _ _ _ _ => n
  | .enterprise n _ => n
  | .reward n _ => n

/-- The digits of `variable_nat_encode` but for the last: seven bits each, highest first, with the high bit set. A number of 64
bits has at most nine of them. -/
def highBytes : Nat → Nat → Bytes
  | 0, _ => []
  | f + 1, n => if n = 0 then [] else highBytes f (n / 128) ++ [UInt8.ofNat (n % 128 + 128)]

/-- `variable_nat_encode`: the last digit has no high bit. -/
def writeNat (n : Nat) : Bytes := highBytes 9 (n / 128) ++ [UInt8.ofNat (n % 128)]

/-- The loop of `variable_nat_decode`, with what is left over. -/
def readNat : Nat → Bytes → Option (Nat × Bytes)
  | _, [] => none
  | acc, b :: bs =>
    let acc' := acc * 128 + b.toNat % 128
    if 2 ^ 64 ≤ acc' then none else if b.toNat < 128 then some (acc', bs) else readNat acc' bs

/-- `to_bytes`: a byte with kind and network, and the hashes. -/
def Addr.toBytes : Addr → Bytes
  | .base n p s => UInt8.ofNat (p.kind * 16 + s.kind * 32 + n.val) :: (p.hash ++ s.hash)
  | .pointer n p slot tx cert =>
    UInt8.ofNat (64 + p.kind * 16 + n.val) :: (p.hash ++ (writeNat slot ++ (writeNat tx ++ writeNat cert)))
  | .enterprise n p => UInt8.ofNat (96 + p.kind * 16 + n.val) :: p.hash
  | .reward n p => UInt8.ofNat (224 + p.kind * 16 + n.val) :: p.hash

/-- `read_addr_cred`: the kind is a bit of the first byte. -/
def readCred (script : Bool) (h : Bytes) : Option Cred :=
  if hl : h.length = 28 then some (if script then .script ⟨h, hl⟩ else .key ⟨h, hl⟩) else none

/-- The three numbers of a pointer, and nothing after them. -/
def readPointer (b : Bytes) : Option (Nat × Nat × Nat) :=
  match readNat 0 b with
  | none => none
  | some (slot, b) =>
    match readNat 0 b with
    | none => none
    | some (tx, b) =>
      match readNat 0 b with
      | some (cert, []) => some (slot, tx, cert)
      | _ => none

/-- A number of 64 bits. -/
def word (n : Nat) : Fin (2 ^ 64) := ⟨n % 2 ^ 64, Nat.mod_lt _ (by decide)⟩

/-- `from_bytes`. -/
def Addr.fromBytes : Bytes → Option Addr
  | [] => none
  | x :: rest =>
    let network : Fin 16 := ⟨x.toNat % 16, Nat.mod_lt _ (by decide)⟩
    match x.toNat / 32 with
    | 0 | 1 =>
      match readCred (x.toNat.testBit 4) (rest.take 28), readCred (x.toNat.testBit 5) (rest.drop 28) with
      | some p, some s => some (.base network p s)
      | _, _ => none
    | 2 =>
      match readCred (x.toNat.testBit 4) (rest.take 28), readPointer (rest.drop 28) with
      | some p, some (slot, tx, cert) => some (.pointer network p (word slot) (word tx) (word cert))
      | _, _ => none
    | 3 => (readCred (x.toNat.testBit 4) rest).map (.enterprise network ·)
    | 7 => (readCred (x.toNat.testBit 4) rest).map (.reward network ·)
    | _ => none

/-- The prefix `to_bech32(None)` takes: kind of address, and whether the network is number 0. -/
def Addr.prefix (a : Addr) : List Char :=
  (match a with
    | .reward _ _ => "stake".toList
    | _ => "addr".toList) ++ (if a.network.val = 0 then "_test".toList else [])

/-- `to_bech32(None)`. -/
def Addr.toText (a : Addr) : Option (List Char) := Bech32.encode a.prefix (Bech32.toBase32 a.toBytes)

/-- `from_bech32`; the prefix is not looked at. -/
def Addr.fromText (t : List Char) : Option Addr :=
  match Bech32.decode t with
  | none => none
  | some (_, vs) =>
    match Bech32.fromBase32 vs with
    | none => none
    | some b => Addr.fromBytes b

namespace FirstAddress

/-- `NetworkId`, main.rs:18-34. -/
inductive Net where
  | testnet
  | mainnet
deriving DecidableEq

/-- `NetworkId::from_str`, main.rs:27-33. -/
def Net.read (t : List Char) : Option Net :=
  if t = "mainnet".toList then some .mainnet else if t = "testnet".toList then some .testnet else none

/-- `opt.network as u8`, main.rs:20-23. -/
def Net.number : Net → Fin 16
  | .testnet => 0
  | .mainnet => 1

/-- An answer of the backend: none, or a status and perhaps a body. -/
inductive Reply where
  | unsent
  | answer (success : Bool) (body : Option (List Char))

/-- A request to the backend of a network, main.rs:66, 98-116. -/
inductive Query where
  | latest (net : Net)
  | used (net : Net) (addresses : List (List Char)) (untilBlock : List Char)
deriving DecidableEq

/-- What is printed, main.rs:91-94, 126-130. -/
inductive Line where
  | checking (address : List Char)
  | used
  | unused
deriving DecidableEq

/-- How the tool ends. -/
inductive End where
  | done
  | error
  | panic
deriving DecidableEq

/-- What is outside: public key derivation (`Bip32PublicKey::derive`), the hash of a derived key (Blake2b with 28 bytes of the
raw key), the backend, and the JSON reader for its answers. -/
structure World where
  derive : Bytes → Nat → Option Bytes
  keyHash : Bytes → Hash28
  backend : Query → Reply
  readLatest : List Char → Option (List Char)
  readUsed : List Char → Option (List (List Char))

/-- The keys at the path, main.rs:74-83. -/
def World.path (w : World) (pk : Bytes) (i j : Nat) : Option Bytes := (w.derive pk i).bind (w.derive · j)

/-- Lines, requests and end of a run. -/
structure Run where
  lines : List Line
  asked : List Query
  ends : End
deriving DecidableEq

/-- The second request and the verdict, main.rs:109-132. The status of the first answer is not looked at; that of the second
is. -/
def askUsed (w : World) (net : Net) (t block : List Char) : Run :=
  let asked := [Query.latest net, Query.used net [t] block]
  match w.backend (.used net [t] block) with
  | .unsent => ⟨[.checking t], asked, .error⟩
  | .answer success body =>
    if !success then ⟨[.checking t], asked, .error⟩
    else
      match body with
      | none => ⟨[.checking t], asked, .panic⟩
      | some s =>
        match w.readUsed s with
        | none => ⟨[.checking t], asked, .error⟩
        | some l => ⟨[.checking t, if l.isEmpty then .unused else .used], asked, .done⟩

/-- The first request, main.rs:98-107. -/
def askLatest (w : World) (net : Net) (t : List Char) : Run :=
  match w.backend (.latest net) with
  | .unsent => ⟨[.checking t], [.latest net], .error⟩
  | .answer _ body =>
    match body.bind w.readLatest with
    | none => ⟨[.checking t], [.latest net], .error⟩
    | some block => askUsed w net t block

/-- The address, main.rs:68-89: a public key has 64 bytes (`Bip32PublicKey::from_bytes`). -/
def address (w : World) (key : List Char) (net : Net) : Option Addr :=
  match hexDecode key with
  | none => none
  | some pk =>
    if pk.length ≠ 64 then none
    else
      match w.path pk 2 0, w.path pk 0 0 with
      | some stake, some spend => some (.base net.number (.key (w.keyHash spend)) (.key (w.keyHash stake)))
      | _, _ => none

/-- `main`, main.rs:63-133. -/
def run (w : World) (key network : List Char) : Run :=
  match Net.read network with
  | none => ⟨[], [], .error⟩
  | some net =>
    match address w key net with
    | none => ⟨[], [], .error⟩
    | some a =>
      match a.toText with
      | none => ⟨[], [], .panic⟩
      | some t => askLatest w net t

end FirstAddress

end Verif.Cardano
