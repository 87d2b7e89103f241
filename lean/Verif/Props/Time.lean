import Verif.Sources.Time
import Mathlib.Tactic.Linarith
import Mathlib.Tactic.Ring

/-!
# C27: slots, epochs and timestamps
-/

namespace Verif.Props

open Verif.Sources

theorem u64_ok {n r : Nat} (h : u64 n = .ok r) : r = n ∧ n < 2 ^ 64 := by
  unfold u64 at h
  split at h
  · rename_i hn
    exact ⟨(Except.ok.inj h).symm, hn⟩
  · cases h

theorem epoch_ok {e : Era} {slot ep : Nat} (h : absoluteSlotToEpoch e slot = .ok (some ep)) :
    e.firstSlot ≤ slot ∧ 0 < e.epochLengthSeconds ∧
      ep = e.startEpoch + (slot - e.firstSlot) / e.epochLengthSeconds ∧ ep < 2 ^ 64 := by
  unfold absoluteSlotToEpoch at h
  split at h
  · cases h
  · split at h
    · cases h
    · cases hu : u64 (e.startEpoch + (slot - e.firstSlot) / e.epochLengthSeconds) with
      | error x => rw [hu] at h; cases h
      | ok r =>
        rw [hu] at h
        obtain ⟨h1, h2⟩ := u64_ok hu
        have h3 : r = ep := Option.some.inj (Except.ok.inj h)
        refine ⟨by omega, by omega, by omega, by omega⟩

theorem relative_ok {e : Era} {slot r : Nat} (h : absoluteSlotToRelative e slot = .ok (some r)) :
    e.firstSlot ≤ slot ∧ 0 < e.epochLengthSeconds ∧ r = (slot - e.firstSlot) % e.epochLengthSeconds := by
  unfold absoluteSlotToRelative at h
  split at h
  · cases h
  · split at h
    · cases h
    · have := Option.some.inj (Except.ok.inj h)
      exact ⟨by omega, by omega, this.symm⟩

theorem timestamp_ok {e : Era} {slot t : Nat} (h : computeTimestamp e slot = .ok t) :
    e.firstSlot ≤ slot ∧ t = e.knownTime + (slot - e.firstSlot) * e.slotLength ∧ t < 2 ^ 64 := by
  unfold computeTimestamp at h
  split at h
  · cases h
  · cases hu : u64 ((slot - e.firstSlot) * e.slotLength) with
    | error x => rw [hu] at h; cases h
    | ok d =>
      rw [hu] at h
      obtain ⟨h1, _⟩ := u64_ok hu
      obtain ⟨h3, h4⟩ := u64_ok h
      exact ⟨by omega, by rw [h3, h1], by omega⟩

/-- C27: a slot before the era has no epoch and no relative slot, and a timestamp is not computed. -/
theorem C27_before_era (e : Era) {slot : Nat} (h : slot < e.firstSlot) :
    absoluteSlotToEpoch e slot = .ok none ∧ absoluteSlotToRelative e slot = .ok none ∧
      computeTimestamp e slot = .error .panic := by
  unfold absoluteSlotToEpoch absoluteSlotToRelative computeTimestamp
  simp [h]

/-- C27: from the era on epoch and relative slot recompose to the slot, and they are the only such
pair. -/
theorem C27_recompose {e : Era} {slot ep r : Nat} (h1 : absoluteSlotToEpoch e slot = .ok (some ep))
    (h2 : absoluteSlotToRelative e slot = .ok (some r)) :
    e.startEpoch ≤ ep ∧ r < e.epochLengthSeconds ∧
      e.firstSlot + (ep - e.startEpoch) * e.epochLengthSeconds + r = slot ∧
      ∀ ep' r', e.startEpoch ≤ ep' → r' < e.epochLengthSeconds →
        e.firstSlot + (ep' - e.startEpoch) * e.epochLengthSeconds + r' = slot → ep' = ep ∧ r' = r := by
  obtain ⟨h3, h4, rfl, _⟩ := epoch_ok h1
  obtain ⟨_, _, rfl⟩ := relative_ok h2
  have h5 := Nat.div_add_mod (slot - e.firstSlot) e.epochLengthSeconds
  refine ⟨Nat.le_add_right _ _, Nat.mod_lt _ h4, ?_, fun ep' r' h6 h7 h8 => ?_⟩
  · rw [Nat.add_sub_cancel_left, Nat.mul_comm]
    omega
  · have h9 : slot - e.firstSlot = r' + (ep' - e.startEpoch) * e.epochLengthSeconds := by omega
    rw [h9, Nat.add_mul_div_right _ _ h4, Nat.div_eq_of_lt h7, Nat.add_mul_mod_self_right,
      Nat.mod_eq_of_lt h7]
    exact ⟨by omega, rfl⟩

/-- C27: epochs do not go down with the slot, and go up by one when an epoch's length has passed. -/
theorem C27_epoch_monotone {e : Era} {slot slot' ep ep' : Nat}
    (h1 : absoluteSlotToEpoch e slot = .ok (some ep)) (h2 : absoluteSlotToEpoch e slot' = .ok (some ep')) :
    (slot ≤ slot' → ep ≤ ep') ∧ (slot' = slot + e.epochLengthSeconds → ep' = ep + 1) := by
  obtain ⟨h3, h4, rfl, _⟩ := epoch_ok h1
  obtain ⟨_, _, rfl, _⟩ := epoch_ok h2
  constructor
  · intro hs
    have := Nat.div_le_div_right (c := e.epochLengthSeconds)
      (show slot - e.firstSlot ≤ slot' - e.firstSlot by omega)
    omega
  · rintro rfl
    have : slot + e.epochLengthSeconds - e.firstSlot = slot - e.firstSlot + e.epochLengthSeconds := by omega
    rw [this, Nat.add_div_right _ h4]
    omega

/-- C27: the timestamp is the era's time plus the elapsed slots times the slot length; it is computed
exactly if the slot is not before the era and the result fits in 64 bits. -/
theorem C27_timestamp (e : Era) (slot t : Nat) : computeTimestamp e slot = .ok t ↔
    e.firstSlot ≤ slot ∧ t = e.knownTime + (slot - e.firstSlot) * e.slotLength ∧ t < 2 ^ 64 := by
  constructor
  · exact timestamp_ok
  · rintro ⟨h1, rfl, h3⟩
    unfold computeTimestamp u64
    rw [if_neg (by omega), if_pos (by omega)]
    simp only
    rw [if_pos h3]

/-- C27: timestamps go up with the slot, by the slot length per slot. -/
theorem C27_timestamp_monotone {e : Era} {slot slot' t t' : Nat} (h1 : computeTimestamp e slot = .ok t)
    (h2 : computeTimestamp e slot' = .ok t') (hs : slot ≤ slot') :
    t' = t + (slot' - slot) * e.slotLength := by
  obtain ⟨h3, rfl, _⟩ := timestamp_ok h1
  obtain ⟨h4, rfl, _⟩ := timestamp_ok h2
  have : slot' - e.firstSlot = (slot - e.firstSlot) + (slot' - slot) := by omega
  rw [this, Nat.add_mul]
  omega

/-- C27: without overflow checks the same timestamp is computed whenever the checked one is. -/
theorem C27_release {e : Era} {slot t : Nat} (he : e.Fits) (hs : slot < 2 ^ 64)
    (h : computeTimestamp e slot = .ok t) : computeTimestampWrap e slot = t := by
  obtain ⟨h1, rfl, h3⟩ := timestamp_ok h
  have h4 := he.1
  unfold computeTimestampWrap
  have h5 : (slot + (2 ^ 64 - e.firstSlot)) % 2 ^ 64 = slot - e.firstSlot := by omega
  rw [h5, Nat.mod_eq_of_lt (show (slot - e.firstSlot) * e.slotLength < 2 ^ 64 by omega),
    Nat.mod_eq_of_lt h3]

/-- C27: for the configurations of the library and slots below `2 ^ 63` from the era on, everything is
computed, and the Byron era ends where the configured era begins. -/
theorem C27_presets {e : Era} (he : e ∈ presets) :
    byronAbsolute e.startEpoch 0 = .ok e.firstSlot ∧
    ∀ slot, e.firstSlot ≤ slot → slot < 2 ^ 63 →
      (∃ ep, absoluteSlotToEpoch e slot = .ok (some ep)) ∧
      (∃ r, absoluteSlotToRelative e slot = .ok (some r)) ∧
      ∃ t, computeTimestamp e slot = .ok t := by
  have hl : 0 < e.epochLengthSeconds ∧ e.startEpoch ≤ 208 ∧ e.knownTime ≤ 1686789000 ∧ e.slotLength = 1 ∧
      byronAbsolute e.startEpoch 0 = .ok e.firstSlot := by
    simp only [presets, List.mem_cons, List.not_mem_nil, or_false] at he
    rcases he with rfl | rfl | rfl | rfl | rfl <;>
      simp [shelleyMainnet, shelleyTestnet, shelleyPreprod, shelleyPreview, shelleySancho, byronAbsolute, u64]
  obtain ⟨h1, h2, h3, h4, h5⟩ := hl
  refine ⟨h5, fun slot h6 h7 => ⟨?_, ?_, ?_⟩⟩
  · have := Nat.div_le_self (slot - e.firstSlot) e.epochLengthSeconds
    refine ⟨e.startEpoch + (slot - e.firstSlot) / e.epochLengthSeconds, ?_⟩
    · unfold absoluteSlotToEpoch u64
      rw [if_neg (by omega), if_neg (by omega), if_pos (by omega)]
      rfl
  · refine ⟨(slot - e.firstSlot) % e.epochLengthSeconds, ?_⟩
    · unfold absoluteSlotToRelative
      rw [if_neg (by omega), if_neg (by omega)]
  · exact ⟨_, (C27_timestamp e slot _).2 ⟨h6, rfl, by rw [h4]; omega⟩⟩

/-- C27: Byron epoch and slot in the epoch are numbered consecutively, 21600 slots per epoch. -/
theorem C27_byron {ep s ep' s' a : Nat} (h1 : byronAbsolute ep s = .ok a) (h2 : byronAbsolute ep' s' = .ok a)
    (hs : s < 21600) (hs' : s' < 21600) : a = ep * 21600 + s ∧ ep' = ep ∧ s' = s := by
  have key : ∀ {x y : Nat}, byronAbsolute x y = .ok a → a = x * 21600 + y := by
    intro x y h
    unfold byronAbsolute at h
    cases hu : u64 (x * (432000 / 20)) with
    | error z => rw [hu] at h; cases h
    | ok b =>
      rw [hu] at h
      obtain ⟨h3, _⟩ := u64_ok hu
      obtain ⟨h4, _⟩ := u64_ok h
      omega
  have h3 := key h1
  have h4 := key h2
  omega

/-- The epoch length is given in seconds but used as a number of slots: an epoch lasts
`epochLengthSeconds` seconds only if slots last one second. -/
theorem C27_epoch_seconds_unit_slots {e : Era} {slot slot' ep t t' : Nat} (hl : e.slotLength = 1)
    (h1 : absoluteSlotToEpoch e slot = .ok (some ep)) (h2 : absoluteSlotToEpoch e slot' = .ok (some (ep + 1)))
    (h3 : absoluteSlotToRelative e slot = .ok (some 0)) (h4 : absoluteSlotToRelative e slot' = .ok (some 0))
    (h5 : computeTimestamp e slot = .ok t) (h6 : computeTimestamp e slot' = .ok t') :
    t' = t + e.epochLengthSeconds := by
  obtain ⟨ha, _, hb, _⟩ := C27_recompose h1 h3
  obtain ⟨hc, _, hd, _⟩ := C27_recompose h2 h4
  obtain ⟨_, rfl, _⟩ := timestamp_ok h5
  obtain ⟨_, rfl, _⟩ := timestamp_ok h6
  have : ep + 1 - e.startEpoch = (ep - e.startEpoch) + 1 := by omega
  rw [this, Nat.add_mul] at hd
  rw [hl]
  omega

/-- The epoch length is not in seconds for other slot lengths. -/
theorem C27_epoch_seconds_false : ¬ ∀ (e : Era) (slot slot' ep t t' : Nat),
    absoluteSlotToEpoch e slot = .ok (some ep) → absoluteSlotToEpoch e slot' = .ok (some (ep + 1)) →
    absoluteSlotToRelative e slot = .ok (some 0) → absoluteSlotToRelative e slot' = .ok (some 0) →
    computeTimestamp e slot = .ok t → computeTimestamp e slot' = .ok t' →
    t' = t + e.epochLengthSeconds := by
  intro h
  exact absurd (h ⟨0, 0, 0, 20, 432000⟩ 0 432000 0 0 8640000 (by decide +kernel) (by decide +kernel)
    (by decide +kernel) (by decide +kernel) (by decide +kernel) (by decide +kernel)) (by decide +kernel)

example : absoluteSlotToEpoch shelleyMainnet 99100852 = .ok (some 427) ∧
    absoluteSlotToRelative shelleyMainnet 99100852 = .ok (some 52) ∧
    computeTimestamp shelleyPreprod 33350429 = .ok 1689033629 ∧ byronAbsolute 4 6195 = .ok 92595 := by
  decide +kernel

/-- A slot before the era. -/
example : computeTimestamp shelleyMainnet 4492799 = .error .panic := (C27_before_era shelleyMainnet (by decide)).2.2

/-- The slot of the first example is slot 52 of epoch 427, and of no other. -/
example : 4492800 + (427 - 208) * 432000 + 52 = 99100852 :=
  (C27_recompose (e := shelleyMainnet) (slot := 99100852) (ep := 427) (r := 52) (by decide +kernel) (by decide +kernel)).2.2.1

/-- The same place one epoch later. -/
example (ep : Nat) (h : absoluteSlotToEpoch shelleyMainnet (99100852 + 432000) = .ok (some ep)) : ep = 428 :=
  (C27_epoch_monotone (e := shelleyMainnet) (slot := 99100852) (ep := 427) (by decide +kernel) h).2 rfl

/-- Ten slots later it is ten seconds later. -/
example (t : Nat) (h : computeTimestamp shelleyPreprod 33350439 = .ok t) : t = 1689033639 := by
  have := C27_timestamp_monotone (e := shelleyPreprod) (slot := 33350429) (t := 1689033629) (by decide +kernel) h (by decide)
  simpa [shelleyPreprod] using this

example : computeTimestampWrap shelleyPreprod 33350429 = 1689033629 :=
  C27_release (by simp [Era.Fits, shelleyPreprod]) (by decide) (by decide +kernel)

/-- The last slot of Byron epoch 207. -/
example (ep s : Nat) (h : byronAbsolute ep s = .ok 4492799) (hs : s < 21600) : 207 = ep ∧ 21599 = s :=
  (C27_byron h (ep' := 207) (s' := 21599) (by decide +kernel) hs (by decide)).2

/-- Two consecutive epochs of the main network begin 432000 seconds apart. -/
example (t t' : Nat) (h : computeTimestamp shelleyMainnet 4492800 = .ok t)
    (h' : computeTimestamp shelleyMainnet (4492800 + 432000) = .ok t') : t' = t + 432000 :=
  C27_epoch_seconds_unit_slots (e := shelleyMainnet) (slot := 4492800) (slot' := 4492800 + 432000) (ep := 208) rfl (by decide +kernel)
    (by decide +kernel) (by decide +kernel) (by decide +kernel) h h'

end Verif.Props
