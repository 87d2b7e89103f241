import Verif.Sources.Config
import Verif.Props.Time

/-!
# C64: networks and the epochs of blocks
-/

namespace Verif.Props

open Verif.Sources

/-- 64 lower case hexadecimal digits: a block identifier. -/
def IsBlockId (s : String) : Prop :=
  s.toList.length = 64 ∧ ∀ c ∈ s.toList, c ∈ "0123456789abcdef".toList

/-- C64: for every network of the library, identifiers are well formed, the default starting point is not before
the genesis block nor before the configured era and lies in its first epoch, the genesis block and its parent differ, and the configured era
begins where the Byron epochs before it end. -/
theorem C64_networks {n : NetworkConfig} (h : n ∈ networks) :
    IsBlockId n.fromId ∧ IsBlockId n.genesisId ∧ IsBlockId n.genesisParent ∧ n.genesisSlot ≤ n.fromSlot ∧
    n.era.firstSlot ≤ n.fromSlot ∧ n.genesisParent ≠ n.genesisId ∧ n.era.firstSlot = n.era.startEpoch * 21600 ∧
    (n.genesisSlot = n.fromSlot → n.genesisId = n.fromId) ∧
    n.fromSlot < n.era.firstSlot + n.era.epochLengthSeconds := by
  simp only [networks, List.mem_cons, List.not_mem_nil, or_false] at h
  rcases h with rfl | rfl | rfl | rfl | rfl <;> (unfold IsBlockId; decide +kernel)

/-- C64: different networks of the library have different magics, genesis blocks and relays. -/
theorem C64_distinct : (networks.map (·.magic)).Nodup ∧ (networks.map (·.genesisId)).Nodup ∧
    (networks.map (·.genesisParent)).Nodup ∧ (networks.map (·.relay)).Nodup := by
  decide +kernel

/-- C64 is false for the network identifier: a test network has that of the main network. -/
theorem C64_network_id_false : ¬ ∀ n ∈ networks, n.networkId = 1 → n.magic = mainnet.magic := by
  intro h
  exact absurd (h sancho (by simp [networks]) rfl) (by decide)

/-- C64: on all networks but sancho the network identifier tells the main network, known by its magic, from test networks.
Missing: sancho, see `C64_network_id_false`. -/
theorem C64_network_id_partial {n : NetworkConfig} (h : n ∈ networks) (hs : n.magic ≠ 4) :
    (n.networkId = 1 ↔ n.magic = 764824073) ∧ n.networkId ≤ 1 := by
  simp only [networks, List.mem_cons, List.not_mem_nil, or_false] at h
  rcases h with rfl | rfl | rfl | rfl | rfl <;> first | decide | exact absurd rfl hs

/-- The public facts about the networks: the magic, the time of the first slot, the Byron epochs, and the days of an epoch
after them. -/
def publicFacts : List (Nat × Nat × Nat × Nat) :=
  [(764824073, 1506203091, 208, 5), (1097911063, 1563999616, 74, 5), (1, 1654041600, 4, 5), (2, 1666656000, 0, 1),
    (4, 1686789000, 0, 1)]

/-- C64: the era of each network fits the public facts. Byron epochs have 21600 slots of 20 seconds; afterwards a slot is a
second and an epoch so many days. Where there were Byron epochs the default starting point is at their end. -/
theorem C64_facts : List.Forall₂ (fun (n : NetworkConfig) (f : Nat × Nat × Nat × Nat) =>
      n.magic = f.1 ∧ n.era.startEpoch = f.2.2.1 ∧ n.era.epochLengthSeconds = f.2.2.2 * 24 * 60 * 60 ∧
      (f.2.2.1 ≠ 0 → n.fromSlot = f.2.2.1 * 21600) ∧
      ∀ slot, f.2.2.1 * 21600 ≤ slot → slot < 2 ^ 63 →
        computeTimestamp n.era slot = .ok (f.2.1 + 20 * (f.2.2.1 * 21600) + (slot - f.2.2.1 * 21600)))
    networks publicFacts := by
  have h64 : (2 : Nat) ^ 64 = 2 * 2 ^ 63 := by decide
  refine .cons ?_ (.cons ?_ (.cons ?_ (.cons ?_ (.cons ?_ .nil)))) <;>
  · refine ⟨rfl, rfl, rfl, by decide, fun slot h1 h2 => (C27_timestamp _ _ _).mpr ?_⟩
    simp only [mainnet, testnet, preprod, preview, sancho, shelleyMainnet, shelleyTestnet, shelleyPreprod,
      shelleyPreview, shelleySancho] at h1 h2 ⊢
    omega

/-- C64: as is publicly known, every network begins with a block in slot 0, but for sancho, whose first block has slot 20. -/
theorem C64_first_slot : ∀ n ∈ networks, n.genesisSlot = if n.magic = 4 then 20 else 0 := by
  decide

/-- C64: the default starting point is not before the first block; it has the slot of the first block just when it names it. -/
theorem C64_start_point : ∀ n ∈ networks, n.genesisSlot ≤ n.fromSlot ∧
    (n.fromId = n.genesisId ↔ n.fromSlot = n.genesisSlot) := by
  decide

example : sancho.fromId = sancho.genesisId ∧ mainnet.fromId ≠ mainnet.genesisId := by decide

/-- Public facts: the magic number of each network, and the host and port of its relays. -/
def publicRelays : List (Nat × String × Nat) :=
  [(764824073, "relays-new.cardano-mainnet.iohk.io.", 3001), (1097911063, "relays-new.cardano-testnet.iohkdev.io.", 3001),
    (1, "preprod-node.world.dev.cardano.org.", 30000), (2, "preview-node.world.dev.cardano.org.", 30002),
    (4, "sanchonet-node.world.dev.cardano.org.", 30004)]

/-- C64: a configured network is reached through its own relays, with its own magic number. -/
theorem C64_relays : ∀ n ∈ networks, (n.magic, n.relay.1, n.relay.2) ∈ publicRelays ∧
    ∀ n' ∈ networks, n'.relay = n.relay → n'.magic = n.magic := by
  decide

/-- A block of the network: Byron blocks are before the configured era and their slot is the one of their epoch
and slot in it; the others are in the configured era. -/
def OfNetwork (n : NetworkConfig) (b : RawBlock) : Prop :=
  b.slot < 2 ^ 63 ∧
  match b.era with
  | .boundary e => b.slot = e * 21600 ∧ e < n.era.startEpoch
  | .byron e s => b.slot = e * 21600 + s ∧ s < 21600 ∧ e < n.era.startEpoch
  | .later => n.era.firstSlot ≤ b.slot

theorem epoch_of_later {n : NetworkConfig} (h : n ∈ networks) {slot : Nat} (h1 : n.era.firstSlot ≤ slot)
    (h2 : slot < 2 ^ 63) :
    absoluteSlotToEpoch n.era slot = .ok (some (n.era.startEpoch + (slot - n.era.firstSlot) / n.era.epochLengthSeconds)) ∧
      0 < n.era.epochLengthSeconds := by
  have he : n.era ∈ presets := by
    simp only [networks, List.mem_cons, List.not_mem_nil, or_false] at h
    rcases h with rfl | rfl | rfl | rfl | rfl <;> decide
  obtain ⟨ep, hep⟩ := ((C27_presets he).2 slot h1 h2).1
  obtain ⟨_, h4, h5, _⟩ := epoch_ok hep
  exact ⟨by rw [hep, h5], h4⟩

/-- C64: every block of a network of the library becomes an event that says what the block says, with the epoch
the block is in. -/
theorem C64_event {n : NetworkConfig} (h : n ∈ networks) {b : RawBlock} (hb : OfNetwork n b) :
    ∃ e, blockEvent n.era b = .ok (some e) ∧ e.id = b.id ∧ (∀ p, b.prev = some p → e.parentId = p) ∧
      e.number = b.number ∧ e.slot = b.slot ∧ (e.isBoundary = true ↔ ∃ k, b.era = .boundary k) ∧
      -- the epoch: Byron epochs have 21600 slots, those of the configured era their length
      (b.slot < n.era.firstSlot → e.epoch * 21600 ≤ b.slot ∧ b.slot < (e.epoch + 1) * 21600) ∧
      (n.era.firstSlot ≤ b.slot → n.era.startEpoch ≤ e.epoch ∧
        n.era.firstSlot + (e.epoch - n.era.startEpoch) * n.era.epochLengthSeconds ≤ b.slot ∧
        b.slot < n.era.firstSlot + (e.epoch + 1 - n.era.startEpoch) * n.era.epochLengthSeconds) := by
  have hf := (C64_networks h).2.2.2.2.2.2.1
  obtain ⟨h63, hera⟩ := hb
  cases he : b.era with
  | boundary k =>
    rw [he] at hera
    dsimp only at hera
    refine ⟨_, by simp only [blockEvent, he]; rfl, rfl, fun p hp => by simp [hp], rfl, rfl, by simp, ?_, ?_⟩
    · intro _
      dsimp only
      omega
    · intro h1
      have : (k + 1) * 21600 ≤ n.era.startEpoch * 21600 := Nat.mul_le_mul_right _ (by omega)
      omega
  | byron k sl =>
    rw [he] at hera
    dsimp only at hera
    refine ⟨_, by simp only [blockEvent, he]; rfl, rfl, fun p hp => by simp [hp], rfl, rfl, by simp, ?_, ?_⟩
    · intro _
      dsimp only
      omega
    · intro h1
      have : (k + 1) * 21600 ≤ n.era.startEpoch * 21600 := Nat.mul_le_mul_right _ (by omega)
      omega
  | later =>
    rw [he] at hera
    dsimp only at hera
    obtain ⟨h1, h2⟩ := epoch_of_later h hera h63
    refine ⟨_, by simp only [blockEvent, he, h1]; rfl, rfl, fun p hp => by simp [hp], rfl, rfl, by simp, ?_, ?_⟩
    · intro h3
      omega
    · intro _
      dsimp only
      have h3 := Nat.div_add_mod (b.slot - n.era.firstSlot) n.era.epochLengthSeconds
      have h4 := Nat.mod_lt (b.slot - n.era.firstSlot) h2
      generalize (b.slot - n.era.firstSlot) / n.era.epochLengthSeconds = q at *
      have e1 : n.era.startEpoch + q - n.era.startEpoch = q := by omega
      have e2 : n.era.startEpoch + q + 1 - n.era.startEpoch = q + 1 := by omega
      rw [e1, e2, Nat.add_mul, Nat.mul_comm q]
      omega

/-- C64: along a chain (slots do not go down) of a network of the library, epochs do not go down, from Byron
blocks to later ones too. -/
theorem C64_epochs_monotone {n : NetworkConfig} (h : n ∈ networks) {b b' : RawBlock} (hb : OfNetwork n b)
    (hb' : OfNetwork n b') (hs : b.slot ≤ b'.slot) {e e' : BlockEvent} (h1 : blockEvent n.era b = .ok (some e))
    (h2 : blockEvent n.era b' = .ok (some e')) : e.epoch ≤ e'.epoch := by
  obtain ⟨x, hx, _, _, _, _, _, hx1, hx2⟩ := C64_event h hb
  obtain ⟨y, hy, _, _, _, _, _, hy1, hy2⟩ := C64_event h hb'
  obtain rfl : x = e := by
    have := hx.symm.trans h1
    simpa using this
  obtain rfl : y = e' := by
    have := hy.symm.trans h2
    simpa using this
  have hf := (C64_networks h).2.2.2.2.2.2.1
  by_contra hlt
  have hlt := not_le.1 hlt
  by_cases hb1 : b.slot < n.era.firstSlot
  · obtain ⟨a1, a2⟩ := hx1 hb1
    have : (y.epoch + 1) * 21600 ≤ x.epoch * 21600 := Nat.mul_le_mul_right _ (by omega)
    by_cases hb2 : b'.slot < n.era.firstSlot
    · have := hy1 hb2
      omega
    · have h3 := (hy2 (by omega)).1
      have : n.era.startEpoch * 21600 ≤ x.epoch * 21600 := Nat.mul_le_mul_right _ (by omega)
      omega
  · obtain ⟨a0, a1, a2⟩ := hx2 (by omega)
    obtain ⟨b0, b1, b2⟩ := hy2 (by omega)
    have : (y.epoch + 1 - n.era.startEpoch) * n.era.epochLengthSeconds ≤
        (x.epoch - n.era.startEpoch) * n.era.epochLengthSeconds := Nat.mul_le_mul_right _ (by omega)
    omega

/-- C64: the only blocks without epoch are those of later eras before the configured era; a Byron block of any epoch
has one. -/
theorem C64_no_epoch (era : Era) (b : RawBlock) : blockEvent era b = .ok none ↔
    b.era = .later ∧ b.slot < era.firstSlot := by
  unfold blockEvent
  cases he : b.era with
  | boundary k => simp
  | byron k sl => simp
  | later =>
    have key : absoluteSlotToEpoch era b.slot = .ok none ↔ b.slot < era.firstSlot := by
      unfold absoluteSlotToEpoch
      by_cases h1 : b.slot < era.firstSlot
      · simp [h1]
      · by_cases h2 : era.epochLengthSeconds = 0
        · simp [h1, h2]
        · simp only [h1, h2, if_false, iff_false]
          unfold u64
          split <;> simp [Except.map]
    simp only [true_and]
    rw [← key]
    cases absoluteSlotToEpoch era b.slot with
    | error x => simp
    | ok o => cases o <;> simp

/-- The last Byron block and the first later one on the main network. -/
example : OfNetwork mainnet ⟨"a", some "b", 4490510, 4492799, .byron 207 21599⟩ ∧
    OfNetwork mainnet ⟨"c", some "a", 4490511, 4492800, .later⟩ ∧
    (blockEvent mainnet.era ⟨"a", some "b", 4490510, 4492799, .byron 207 21599⟩).map (·.map (·.epoch)) = .ok (some 207) ∧
    (blockEvent mainnet.era ⟨"c", some "a", 4490511, 4492800, .later⟩).map (·.map (·.epoch)) = .ok (some 208) := by
  refine ⟨⟨by decide, by decide, by decide, by decide⟩, ⟨by decide, by decide⟩, by decide +kernel, by decide +kernel⟩

/-- The theorems apply to these two blocks: both have an event, and the second is not in an earlier epoch. -/
example : ∃ e e', blockEvent mainnet.era ⟨"a", some "b", 4490510, 4492799, .byron 207 21599⟩ = .ok (some e) ∧
    blockEvent mainnet.era ⟨"c", some "a", 4490511, 4492800, .later⟩ = .ok (some e') ∧ e.epoch ≤ e'.epoch := by
  have hn : mainnet ∈ networks := by simp [networks]
  have h1 : OfNetwork mainnet ⟨"a", some "b", 4490510, 4492799, .byron 207 21599⟩ := ⟨by decide, by decide, by decide, by decide⟩
  have h2 : OfNetwork mainnet ⟨"c", some "a", 4490511, 4492800, .later⟩ := ⟨by decide, by decide⟩
  obtain ⟨e, he, _⟩ := C64_event hn h1
  obtain ⟨e', he', _⟩ := C64_event hn h2
  exact ⟨e, e', he, he', C64_epochs_monotone hn h1 h2 (by decide) he he'⟩

/-- There are five networks, and all but one have the network identifier of their magic. -/
example : networks.length = 5 ∧ (networks.filter (·.magic ≠ 4)).length = 4 := by decide

end Verif.Props
