import Verif.Sources.Time

/-!
# Networks and block events

Models the networks of `/repo/blockchain-source/src/cardano/configuration.rs` and the construction of block events
in `/repo/blockchain-source/src/cardano/event.rs`. Decoding the bytes of a block is left to `cml_multi_era`: a block
is what it says about them.
-/

namespace Verif.Sources

/-- `NetworkConfiguration`, configuration.rs:5-13. The chain information is reduced to the network identifier and
the protocol magic; points are a slot and the text of a block identifier. -/
structure NetworkConfig where
  networkId : Nat
  magic : Nat
  relay : String × Nat
  fromSlot : Nat
  fromId : String
  genesisParent : String
  genesisSlot : Nat
  genesisId : String
  era : Era

/-- `mainnet`, configuration.rs:16-37. The chain information is that of the library. -/
def mainnet : NetworkConfig :=
  ⟨1, 764824073, ("relays-new.cardano-mainnet.iohk.io.", 3001),
   4492800, "aa83acbf5904c0edfe4d79b3689d3d00fcfc553cf360fd2229b98d464c28e9de",
   "5f20df933584822601f9e3f8c024eb5eb252fe8cefb24d1317dc3d432e940ebb",
   0, "89d9b5a5b8ddc8d7e5a6795e9774d97faf1efea59b2caf7eaf9f8c5b32059df4", shelleyMainnet⟩

/-- `testnet`, configuration.rs:39-63. -/
def testnet : NetworkConfig :=
  ⟨0, 1097911063, ("relays-new.cardano-testnet.iohkdev.io.", 3001),
   1598400, "02b1c561715da9e540411123a6135ee319b02f60b9a11a603d3305556c04329f",
   "96fceff972c2c06bd3bb5243c39215333be6d56aaf4823073dca31afe5038471",
   0, "8f8602837f7c6f8b8867dd1cbc1842cf51a27eaed2c70ef48325d00f8efb320f", shelleyTestnet⟩

/-- `preprod`, configuration.rs:65-86. -/
def preprod : NetworkConfig :=
  ⟨0, 1, ("preprod-node.world.dev.cardano.org.", 30000),
   86400, "c4a1595c5cc7a31eda9e544986fe9387af4e3491afe0ca9a80714f01951bbd5c",
   "d4b8de7a11d929a323373cbab6c1a9bdc931beffff11db111cf9d57356ee1937",
   0, "9ad7ff320c9cf74e0f5ee78d22a85ce42bb0a487d0506bf60cfb5a91ea4497d2", shelleyPreprod⟩

/-- `preview`, configuration.rs:88-109. -/
def preview : NetworkConfig :=
  ⟨0, 2, ("preview-node.world.dev.cardano.org.", 30002),
   25400, "8542d7f0b744f40f3de6164294b5feb0095307d46c7290acc8a5d9bd802acb8e",
   "72593f260b66f26bef4fc50b38a8f24d3d3633ad2e854eaf73039eb9402706f1",
   0, "268ae601af8f9214804735910a3301881fbe0eec9936db7d1fb9fc39e93d1e37", shelleyPreview⟩

/-- `sancho`, configuration.rs:111-138. -/
def sancho : NetworkConfig :=
  ⟨1, 4, ("sanchonet-node.world.dev.cardano.org.", 30004),
   20, "6a7d97aae2a65ca790fd14802808b7fce00a3362bd7b21c4ed4ccb4296783b98",
   "785eb88427e136378a15b0a152a8bfbeec7a611529ccda29c43a1e60ffb48eaa",
   20, "6a7d97aae2a65ca790fd14802808b7fce00a3362bd7b21c4ed4ccb4296783b98", shelleySancho⟩

/-- The networks of the library. -/
def networks : List NetworkConfig := [mainnet, testnet, preprod, preview, sancho]

/-- What the library reads from the bytes of a block: a Byron boundary block with its epoch, another Byron block
with its epoch and slot in the epoch, or a block of a later era. -/
inductive EraBlock where
  | boundary (epoch : Nat)
  | byron (epoch slotInEpoch : Nat)
  | later

/-- A decoded block: its identifier, that of its parent if it has one, its number, and its slot. -/
structure RawBlock where
  id : String
  prev : Option String
  number : Nat
  slot : Nat
  era : EraBlock

/-- `BlockEvent`, event.rs:19-28, without the bytes. -/
structure BlockEvent where
  id : String
  parentId : String
  number : Nat
  slot : Nat
  isBoundary : Bool
  epoch : Nat
deriving DecidableEq

/-- `BlockEvent::from_serialized_block`, event.rs:107-141, after decoding: `none` is the error that no epoch can
be computed, an overflow is a panic. -/
def blockEvent (era : Era) (b : RawBlock) : Except TimeErr (Option BlockEvent) :=
  let epoch := match b.era with
    | .boundary e => Except.ok (some e)
    | .byron e _ => Except.ok (some e)
    | .later => absoluteSlotToEpoch era b.slot
  match epoch with
  | .error x => .error x
  | .ok none => .ok none
  | .ok (some e) => .ok (some {
      id := b.id
      -- `get_parent_id`, event.rs:52-58
      parentId := b.prev.getD "0x0000000000000000000000000000000000000000"
      number := b.number
      slot := b.slot
      isBoundary := match b.era with
        | .boundary _ => true
        | _ => false
      epoch := e })

end Verif.Sources
