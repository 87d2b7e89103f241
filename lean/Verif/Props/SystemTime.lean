import Verif.Core.SystemTime
import Verif.Props.Time

/-!
# Timestamps as system time (C96)
-/

namespace Verif.Props

open Verif.Core Verif.Sources

theorem intoUnixTime_eq (t : U64) :
    t.intoUnixTime = if t.val < 2 ^ 63 then some ⟨(t.val : Int), 0⟩ else none := by
  have hc : ((t.val : Int) < 2 ^ 63) ↔ t.val < 2 ^ 63 := by omega
  have hn : (0 : Nat) + 0 < 1000000000 := by omega
  unfold U64.intoUnixTime SystemTime.add SystemTime.unixEpoch
  simp only [if_pos hn, Int.zero_add, Int.add_zero, hc]

/-- **C96.** A timestamp below `2 ^ 63` is the system time that lies that many seconds after the UNIX epoch; from there
on the conversion panics. -/
theorem C96_exact (t : U64) :
    (t.val < 2 ^ 63 → ∃ s, t.intoUnixTime = some s ∧ s.sinceEpoch = some (t.val, 0)) ∧
    (2 ^ 63 ≤ t.val → t.intoUnixTime = none) := by
  rw [intoUnixTime_eq]
  constructor
  · intro h
    exact ⟨⟨(t.val : Int), 0⟩, if_pos h, by simp [SystemTime.sinceEpoch]⟩
  · intro h
    exact if_neg (by omega)

example : ∃ s, (⟨1596059091, by decide⟩ : U64).intoUnixTime = some s ∧ s.sinceEpoch = some (1596059091, 0) :=
  (C96_exact _).1 (by decide)

/-- **C96.** Where both are converted, timestamps and system times are ordered alike, and different timestamps are
different times. -/
theorem C96_order {t t' : U64} {s s' : SystemTime} (h : t.intoUnixTime = some s) (h' : t'.intoUnixTime = some s') :
    (s.before s' ↔ t.val < t'.val) ∧ (s = s' ↔ t = t') := by
  have key : ∀ {t : U64} {s : SystemTime}, t.intoUnixTime = some s → s = ⟨t.val, 0⟩ := by
    intro t s h
    rw [intoUnixTime_eq] at h
    split at h
    · exact (Option.some.inj h).symm
    · cases h
  rw [key h, key h']
  refine ⟨by simp [SystemTime.before], ?_⟩
  constructor
  · intro e
    have : t.val = t'.val := by simpa using e
    cases t; cases t'; simp_all
  · rintro rfl; rfl

/-- **C96.** With the eras of the library, every slot below `2 ^ 62` from the era on has a system time: the era's known
time and the seconds of the slots since. -/
theorem C96_slots {e : Era} (he : e ∈ presets) {slot : Nat} (h1 : e.firstSlot ≤ slot) (h2 : slot < 2 ^ 62) :
    ∃ (t : U64) (s : SystemTime), computeTimestamp e slot = .ok t.val ∧ t.intoUnixTime = some s ∧
      s.sinceEpoch = some (e.knownTime + (slot - e.firstSlot), 0) := by
  have hp : e.slotLength = 1 ∧ e.knownTime < 2 ^ 62 := by
    simp only [presets, List.mem_cons, List.not_mem_nil, or_false] at he
    rcases he with rfl | rfl | rfl | rfl | rfl <;> decide
  have hlt : e.knownTime + (slot - e.firstSlot) < 2 ^ 63 := by omega
  obtain ⟨s, h3, h4⟩ := (C96_exact ⟨e.knownTime + (slot - e.firstSlot), by unfold u64Bound; omega⟩).1 hlt
  refine ⟨_, s, ?_, h3, h4⟩
  rw [C27_timestamp]
  exact ⟨h1, by rw [hp.1, Nat.mul_one], by simp only; omega⟩

example : shelleyMainnet ∈ presets ∧ shelleyMainnet.firstSlot ≤ 4492801 := by decide

/-- **C96 is false** for timestamps far in the future: the largest timestamp panics. -/
theorem C96_total_false : ¬ ∀ t : U64, t.intoUnixTime ≠ none := by
  intro h
  exact h U64.MAX ((C96_exact U64.MAX).2 (by decide))

end Verif.Props
