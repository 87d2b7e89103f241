import Verif.Selection.LinearEstimator
import Mathlib.Tactic.Ring
import Mathlib.Tactic.Linarith
import Mathlib.Tactic.NormNum
import Mathlib.Data.List.Perm.Basic

/-!
# The thermostat's fee estimator (C52)
-/

namespace Verif.Props

open Verif Verif.Core Verif.Selection

/-- A part added to a transaction. -/
inductive TxPart where
  | input (u : Utxo)
  | output (o : Output)

/-- What an estimator asks for a part, before it is added. -/
def quote {σ : Type} (E : Estimator σ) (s : σ) : TxPart → Except SelErr ℚ
  | .input u => E.feeIn s u
  | .output o => E.feeOut s o

/-- Adding a part. -/
def addPart {σ : Type} (E : Estimator σ) (s : σ) : TxPart → Except SelErr σ
  | .input u => E.addIn s u
  | .output o => E.addOut s o

/-- Adding parts one by one. -/
def addParts {σ : Type} (E : Estimator σ) (s : σ) : List TxPart → Except SelErr σ
  | [] => .ok s
  | p :: ps =>
    match addPart E s p with
    | .ok s' => addParts E s' ps
    | .error e => .error e

def TxPart.isInput : TxPart → Bool
  | .input _ => true
  | .output _ => false

def TxPart.isOutput (p : TxPart) : Bool := !p.isInput

variable {c : Costs} {minAda : Output → Except SelErr ℚ}

/-- Adding a part never fails; the fee grows by exactly the quote for it, the size by the constant of its kind. -/
theorem C52_additive (s : LE) (p : TxPart) : ∃ s' m q n,
    addPart (linearEstimator c minAda) s p = .ok s' ∧
    (linearEstimator c minAda).minFee s = .ok m ∧ quote (linearEstimator c minAda) s p = .ok q ∧
    (linearEstimator c minAda).minFee s' = .ok (m + q) ∧
    (linearEstimator c minAda).currentSize s = .ok n ∧
    (linearEstimator c minAda).currentSize s' = .ok (n + if p.isInput then c.sizeOfOneInput else c.sizeOfOneOutput) ∧
    (linearEstimator c minAda).maxSize s' = (linearEstimator c minAda).maxSize s := by
  cases p with
  | input u =>
    refine ⟨_, _, _, _, rfl, rfl, rfl, ?_, rfl, rfl, rfl⟩
    simp only [linearEstimator, List.length_append, List.length_singleton, Nat.cast_add, Nat.cast_one, Except.ok.injEq]
    ring
  | output o =>
    refine ⟨_, _, _, _, rfl, rfl, rfl, ?_, rfl, rfl, rfl⟩
    simp only [linearEstimator, List.length_append, List.length_singleton, Nat.cast_add, Nat.cast_one, Except.ok.injEq]
    ring

/-- After any sequence of additions the fee is the fee before, plus the constant fee of an input for each input
added, plus that of an output for each output; the same for the size. -/
theorem C52_totals (s : LE) (ps : List TxPart) : ∃ s' m n,
    addParts (linearEstimator c minAda) s ps = .ok s' ∧
    (linearEstimator c minAda).minFee s = .ok m ∧ (linearEstimator c minAda).currentSize s = .ok n ∧
    (linearEstimator c minAda).minFee s' =
      .ok (m + c.costInput * ps.countP (·.isInput) + c.costOutput * ps.countP (·.isOutput)) ∧
    (linearEstimator c minAda).currentSize s' =
      .ok (n + c.sizeOfOneInput * ps.countP (·.isInput) + c.sizeOfOneOutput * ps.countP (·.isOutput)) := by
  induction ps generalizing s with
  | nil => exact ⟨s, _, _, rfl, rfl, rfl, by simp [linearEstimator], by simp [linearEstimator]⟩
  | cons p ps ih =>
    obtain ⟨s1, m, q, n, h1, h2, h3, h4, h5, h6, _⟩ := C52_additive (c := c) (minAda := minAda) s p
    obtain ⟨s2, m2, n2, k1, k2, k3, k4, k5⟩ := ih s1
    refine ⟨s2, m, n, by simp only [addParts, h1, k1], h2, h5, ?_, ?_⟩
    · rw [k4]
      rw [h4] at k2
      cases k2
      cases p with
      | input u =>
        cases h3
        simp only [List.countP_cons, TxPart.isInput, TxPart.isOutput, Except.ok.injEq, if_true, Bool.not_true,
          Bool.false_eq_true, if_false, Nat.cast_add, Nat.cast_one, Nat.cast_zero]
        ring
      | output o =>
        cases h3
        simp only [List.countP_cons, TxPart.isInput, TxPart.isOutput, Except.ok.injEq, if_true, Bool.not_false,
          Bool.false_eq_true, if_false, Nat.cast_add, Nat.cast_one, Nat.cast_zero]
        ring
    · rw [k5]
      rw [h6] at k3
      cases k3
      cases p with
      | input u =>
        simp only [List.countP_cons, TxPart.isInput, TxPart.isOutput, Except.ok.injEq, if_true, Bool.not_true,
          Bool.false_eq_true, if_false]
        ring
      | output o =>
        simp only [List.countP_cons, TxPart.isInput, TxPart.isOutput, Except.ok.injEq, if_true, Bool.not_false,
          Bool.false_eq_true, if_false]
        ring

/-- The order of the additions does not matter to the fee and the size. -/
theorem C52_order (s : LE) {ps qs : List TxPart} (h : ps.Perm qs) : ∃ s1 s2,
    addParts (linearEstimator c minAda) s ps = .ok s1 ∧ addParts (linearEstimator c minAda) s qs = .ok s2 ∧
    (linearEstimator c minAda).minFee s1 = (linearEstimator c minAda).minFee s2 ∧
    (linearEstimator c minAda).currentSize s1 = (linearEstimator c minAda).currentSize s2 := by
  obtain ⟨s1, m1, n1, a1, a2, a3, a4, a5⟩ := C52_totals (c := c) (minAda := minAda) s ps
  obtain ⟨s2, m2, n2, b1, b2, b3, b4, b5⟩ := C52_totals (c := c) (minAda := minAda) s qs
  refine ⟨s1, s2, a1, b1, ?_, ?_⟩
  · rw [a4, b4, h.countP_eq, h.countP_eq]
    rw [a2] at b2; cases b2; rfl
  · rw [a5, b5, h.countP_eq, h.countP_eq]
    rw [a3] at b3; cases b3; rfl

/-- Asking for the minimum value of an output changes nothing. -/
theorem C52_min_value_pure (s s' : LE) (o : Output) (v : ℚ)
    (h : (linearEstimator c minAda).minValueOut s o = .ok (v, s')) : s' = s := by
  simp only [linearEstimator, bind, Except.bind] at h
  split at h
  · cases h
  · cases h; rfl

/-! ### With the costs of a network -/

theorem mulCoin_ok {a b x : Nat} (h : mulCoin a b = .ok x) : x = a * b := by
  unfold mulCoin at h
  split at h
  · cases h; rfl
  · cases h

theorem addCoin_ok {a b x : Nat} (h : addCoin a b = .ok x) : x = a + b := by
  unfold addCoin at h
  split at h
  · cases h; rfl
  · cases h

theorem LE_new_ok {n : Network} {script quorum : Nat} {s : LE} (h : LE.new n script quorum = .ok (c, s)) :
    c.costEmpty = n.coefficient * (67 + script + 108 * quorum) + n.constant ∧
    c.costInput = n.coefficient * 38 ∧ c.costOutput = n.coefficient * 151 ∧
    c.sizeOfOneInput = 38 ∧ c.sizeOfOneOutput = 151 ∧ c.maxSize = n.maxTxSize ∧
    s.currentSize = 67 + 50 + script + 108 * quorum ∧ s.costMetadata = 0 ∧ s.inputs = [] ∧ s.outputs = [] := by
  unfold LE.new Network.costEmpty Network.costOf at h
  simp only [bind, Except.bind] at h
  cases h1 : mulCoin n.coefficient sizeEmpty with
  | error e => simp [h1] at h
  | ok a =>
  simp only [h1] at h
  cases h2 : addCoin a n.constant with
  | error e => simp [h2] at h
  | ok b =>
  simp only [h2] at h
  cases h3 : mulCoin n.coefficient script with
  | error e => simp [h3] at h
  | ok d =>
  simp only [h3] at h
  cases h4 : mulCoin n.coefficient sizeOneWitness with
  | error e => simp [h4] at h
  | ok w =>
  simp only [h4] at h
  cases h5 : mulCoin n.coefficient sizeOneInput with
  | error e => simp [h5] at h
  | ok i =>
  simp only [h5] at h
  cases h6 : mulCoin n.coefficient sizeOneOutput with
  | error e => simp [h6] at h
  | ok o =>
  simp only [h6, Except.ok.injEq, Prod.mk.injEq] at h
  obtain ⟨rfl, rfl⟩ := h
  have e1 := mulCoin_ok h1
  have e2 := addCoin_ok h2
  have e3 := mulCoin_ok h3
  have e4 := mulCoin_ok h4
  have e5 := mulCoin_ok h5
  have e6 := mulCoin_ok h6
  subst e1 e2 e3 e4 e5 e6
  refine ⟨?_, ?_, ?_, rfl, rfl, rfl, ?_, rfl, rfl, rfl⟩
  · simp only [sizeEmpty, overhead, sizeOneWitness]
    push_cast
    ring
  · simp only [sizeOneInput]; push_cast; ring
  · simp only [sizeOneOutput]; push_cast; ring
  · simp only [sizeEmpty, overhead, sizeOverhead, sizeOneWitness]
    ring

/-- Built for a network and a plan, the estimator asks for the network's linear fee on the assumed size: 67 bytes, the
script, 108 bytes for each witness, 38 for each input and 151 for each output. The size it reports is 50 bytes above
the one it charges for. -/
theorem C52_network {n : Network} {script quorum : Nat} {s0 : LE} (h : LE.new n script quorum = .ok (c, s0))
    (ps : List TxPart) : ∃ s size, addParts (linearEstimator c minAda) s0 ps = .ok s ∧
    size = 67 + script + 108 * quorum + 38 * ps.countP (·.isInput) + 151 * ps.countP (·.isOutput) ∧
    (linearEstimator c minAda).minFee s = .ok (n.coefficient * size + n.constant : ℚ) ∧
    (linearEstimator c minAda).currentSize s = .ok (size + 50) ∧
    (linearEstimator c minAda).maxSize s = .ok n.maxTxSize := by
  obtain ⟨h1, h2, h3, h4, h5, h6, h7, h8, h9, h10⟩ := LE_new_ok h
  obtain ⟨s, m, k, a1, a2, a3, a4, a5⟩ := C52_totals (c := c) (minAda := minAda) s0 ps
  refine ⟨s, _, a1, rfl, ?_, ?_, ?_⟩
  · rw [a4]
    simp only [linearEstimator, h8, h9, h10, List.length_nil, Except.ok.injEq] at a2
    rw [← a2, h1, h2, h3]
    push_cast
    simp only [Except.ok.injEq]
    ring
  · rw [a5]
    simp only [linearEstimator, h7, Except.ok.injEq] at a3
    rw [← a3, h4, h5]
    simp only [Except.ok.injEq]
    ring
  · simp only [linearEstimator, h6]

/-- On the main network and the test network the fee is 44 lovelaces for each byte of the assumed size and 155381, and
the limit is 16384 bytes. -/
theorem C52_public {script quorum : Nat} {s0 : LE} (h : LE.new Network.public script quorum = .ok (c, s0))
    (ps : List TxPart) : ∃ s, addParts (linearEstimator c minAda) s0 ps = .ok s ∧
    (linearEstimator c minAda).minFee s = .ok (44 * (67 + script + 108 * quorum + 38 * ps.countP (·.isInput) +
      151 * ps.countP (·.isOutput)) + 155381 : ℚ) ∧
    (linearEstimator c minAda).maxSize s = .ok 16384 := by
  obtain ⟨s, size, h1, h2, h3, _, h5⟩ := C52_network (minAda := minAda) h ps
  refine ⟨s, h1, ?_, h5⟩
  rw [h3, h2]
  simp only [Network.public]
  push_cast
  rfl

/-- The parts of the next examples. -/
def estParts : List TxPart := [.input ⟨1, 5, [], 0⟩, .output ⟨9, 3, []⟩, .input ⟨2, 5, [], 0⟩]

/-- The public networks with a script of 100 bytes and 2 witnesses. -/
example : (match LE.new Network.public 100 2 with
    | .ok (c, s0) => match addParts (linearEstimator c (fun _ => .ok 0)) s0 estParts with
      | .ok s => ((linearEstimator c (fun _ => .ok 0)).minFee s).toOption
      | .error _ => none
    | .error _ => none) = some (44 * (67 + 100 + 216 + 2 * 38 + 151) + 155381) := by decide +kernel

/-- The size estimate ignores parts already counted: announcing a protocol magic replaces the size by that of the
magic, the script, the witnesses and the parts added before are forgotten. The fee is right. -/
theorem C52_magic_false : ¬ ∀ (n : Network) (script quorum len : Nat) (c : Costs) (s0 s1 : LE),
    LE.new n script quorum = .ok (c, s0) → s0.addProtocolMagic n len = .ok s1 → s0.currentSize ≤ s1.currentSize := by
  intro h
  have := h ⟨0, 0, 0⟩ 0 0 0 ⟨0, 0, 0, 0, 38, 151⟩ { currentSize := 117 } { currentSize := 5 }
    (by simp [LE.new, Network.costEmpty, Network.costOf, mulCoin, addCoin, sizeEmpty, overhead,
      sizeOneWitness, sizeOneInput, sizeOneOutput, sizeOverhead, bind, Except.bind])
    (by simp [LE.addProtocolMagic, Network.costOf, mulCoin, bind, Except.bind])
  simp at this

/-- With a protocol magic the fee grows by the cost of its bytes, once: a second announcement replaces the first. -/
theorem C52_magic_fee {n : Network} {len : Nat} {s s' : LE} {m : ℚ} (h : s.addProtocolMagic n len = .ok s')
    (hm : (linearEstimator c minAda).minFee s = .ok m) :
    (linearEstimator c minAda).minFee s' = .ok (m - s.costMetadata + n.coefficient * (len + 5)) := by
  unfold LE.addProtocolMagic Network.costOf at h
  simp only [bind, Except.bind] at h
  cases h1 : mulCoin n.coefficient (len + 5) with
  | error e => simp [h1] at h
  | ok a =>
    simp only [h1, Except.ok.injEq] at h
    subst h
    have := mulCoin_ok h1
    subst this
    simp only [linearEstimator, Except.ok.injEq] at hm ⊢
    subst hm
    push_cast
    ring

/-- Announcing a magic of 4 bytes to an estimator with the costs of the public networks. -/
example : ∃ s', LE.addProtocolMagic Network.public 4 { currentSize := 117 } = .ok s' ∧
    (linearEstimator c minAda).minFee s' = .ok (c.costEmpty + 44 * 9) := by
  refine ⟨_, rfl, ?_⟩
  rw [C52_magic_fee (c := c) (minAda := minAda) (s := { currentSize := 117 }) (n := Network.public) (len := 4) (m := c.costEmpty) rfl
    (by simp [linearEstimator])]
  simp [Network.public]; norm_num

/-- The order of the parts of the example does not matter. -/
example (s : LE) : ∃ s1 s2, addParts (linearEstimator c minAda) s estParts = .ok s1 ∧
    addParts (linearEstimator c minAda) s estParts.reverse = .ok s2 ∧
    (linearEstimator c minAda).minFee s1 = (linearEstimator c minAda).minFee s2 := by
  obtain ⟨s1, s2, h1, h2, h3, _⟩ := C52_order (c := c) (minAda := minAda) s (List.reverse_perm estParts).symm
  exact ⟨s1, s2, h1, h2, h3⟩

end Verif.Props
