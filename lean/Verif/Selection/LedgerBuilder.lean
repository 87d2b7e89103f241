import Verif.Selection.CmlEstimator
import Verif.Cardano.Tx

/-!
# The builder of the ledger library, by bytes

`TransactionBuilder::min_fee` of `cardano-multiplatform-lib` (not part of `/repo`): the linear fee of the bytes of the
transaction with what has been added, a fee field of nine bytes (the library puts `2^32` there) and
signatures that are not real yet but have the right length.
-/

namespace Verif.Selection

open Verif Verif.Core Verif.Cardano

/-- How UTxOs and outputs are written, and which signatures and scripts the inputs ask for. -/
structure LedgerView where
  coefficient : Nat
  constant : Nat
  input : Utxo → Bytes × Nat
  output : Output → TxOut
  witnesses : List Utxo → List (Bytes × Bytes)
  scripts : List Utxo → List NativeScript

/-- The transaction with these parts. -/
def LedgerView.tx (V : LedgerView) (ins : List Utxo) (outs : List Output) (fee : Nat) : Tx :=
  { inputs := ins.map V.input, outputs := outs.map V.output, fee := fee, witnesses := V.witnesses ins,
    scripts := V.scripts ins }

/-- The builder: conversion fails for negative values (C54). -/
def LedgerView.builder (V : LedgerView) (minAda : Output → Except SelErr ℚ) : CmlBuilder where
  okIn _ := true
  okOut o := decide (0 ≤ o.value)
  fee ins outs := (V.tx ins outs (2 ^ 32)).linearFee V.coefficient V.constant
  size ins outs := (V.tx ins outs (2 ^ 32)).encode.length
  minAda := minAda

/-- Writing an output with a smaller value takes no more bytes. -/
def LedgerView.Grows (V : LedgerView) : Prop :=
  ∀ o o', Below o o' → (V.output o).encode.length ≤ (V.output o').encode.length

/-- Bytes of the outputs. -/
theorem tx_length (V : LedgerView) (ins : List Utxo) (fee : Nat) (outs : List Output) :
    (V.tx ins outs fee).encode.length + headSize 0 = (V.tx ins [] fee).encode.length +
      headSize outs.length + (outs.map fun o => (V.output o).encode.length).sum := by
  simp only [Tx.encode, Tx.encodeBody, LedgerView.tx, List.append_nil, encArray_length, encMap_length, encUInt_length,
    List.map_cons, List.map_nil, List.sum_cons, List.sum_nil, List.length_cons, List.length_nil, List.length_map,
    encTrue, encNull, List.map_map, Function.comp_def]
  omega

theorem tx_length_fee (V : LedgerView) (ins : List Utxo) (outs : List Output) {fee fee' : Nat}
    (h : headSize fee ≤ headSize fee') : (V.tx ins outs fee).encode.length ≤ (V.tx ins outs fee').encode.length := by
  simp only [Tx.encode, Tx.encodeBody, LedgerView.tx, List.append_nil, encArray_length, encMap_length, encUInt_length,
    List.map_cons, List.map_nil, List.sum_cons, List.sum_nil, List.length_cons, List.length_nil, List.length_map,
    encTrue, encNull, List.map_map, Function.comp_def]
  omega

theorem LedgerView.fair (V : LedgerView) (minAda : Output → Except SelErr ℚ) (h : V.Grows) :
    (V.builder minAda).Fair := by
  have key : ∀ ins outs outs', outs.length = outs'.length →
      (outs.map fun o => (V.output o).encode.length).sum ≤ (outs'.map fun o => (V.output o).encode.length).sum →
      (V.builder minAda).fee ins outs ≤ (V.builder minAda).fee ins outs' := by
    intro ins outs outs' h1 h2
    have e1 := tx_length V ins (2 ^ 32) outs
    have e2 := tx_length V ins (2 ^ 32) outs'
    rw [h1] at e1
    have : (V.tx ins outs (2 ^ 32)).encode.length ≤ (V.tx ins outs' (2 ^ 32)).encode.length := by omega
    have := Nat.add_le_add_right (Nat.mul_le_mul_left V.coefficient this) V.constant
    simp only [LedgerView.builder, Tx.linearFee]
    exact_mod_cast this
  refine ⟨?_, ?_, ?_⟩
  · intro ins outs outs' hp
    have hs := (hp.map fun o => (V.output o).encode.length).sum_eq
    exact le_antisymm (key _ _ _ hp.length_eq (le_of_eq hs)) (key _ _ _ hp.length_eq.symm (le_of_eq hs.symm))
  · intro ins rest o o' hb
    refine key _ _ _ (by simp) ?_
    simp only [List.map_cons, List.sum_cons]
    have := h o o' hb
    omega
  · intro ins outs
    simp only [LedgerView.builder]
    positivity

end Verif.Selection
