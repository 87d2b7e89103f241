import Verif.Cardano.Value

/-!
# Values and outputs as keys of maps

Models the comparison and hashing traits of `/repo/core/src/value.rs`,
`/repo/core/src/tx/transaction_asset.rs` and `/repo/core/src/tx/utxo.rs`. Random improve keeps its
choices in a map keyed by outputs.
-/

namespace Verif.Core

/-- Drops at most `k` characters `0` from the front. -/
def dropZeros : Nat → List Char → List Char
  | k + 1, '0' :: t => dropZeros k t
  | _, s => s

/-- `trim_end_matches` with a closure that counts up to `k` and matches `0`. -/
def trimZeros (k : Nat) (s : List Char) : List Char := (dropZeros k s.reverse).reverse

/-- `BigInt::to_str_radix(10)`. -/
def showInt (n : Int) : List Char := if n < 0 then '-' :: showNat n.natAbs else showNat n.natAbs

/-- The text `BigDecimal` hands to the hasher (contract of `bigdecimal` 0.4, `impl Hash`): the
digits, without the zeros after the point, or with the zeros of a negative scale. -/
def Dec.hashText (d : Dec) : List Char :=
  if d.scale > 0 ∧ d.digits ≠ 0 then trimZeros d.scale.toNat (showInt d.digits)
  else if d.scale < 0 ∧ d.digits ≠ 0 then showInt d.digits ++ List.replicate d.scale.natAbs '0'
  else showInt d.digits

/-- `Hash`, value.rs:564-569: what the hasher receives. The phantom data is a unit and adds
nothing. -/
def Value.hashText {r : Rep} (v : Value r) : List Char := v.value.hashText

theorem showNat_mul_ten {n : Nat} (h : n ≠ 0) : showNat (n * 10) = showNat n ++ ['0'] := by
  have h1 : n * 10 ≠ 0 := by omega
  unfold showNat
  rw [if_neg h1, if_neg h]
  have := Nat.digits_add_two_add_one 8 (n * 10 - 1)
  have e : n * 10 - 1 + 1 = n * 10 := by omega
  rw [e] at this
  have e1 : n * 10 % (8 + 2) = 0 := by omega
  have e2 : n * 10 / (8 + 2) = n := by omega
  rw [e1, e2] at this
  show ((Nat.digits 10 (n * 10)).reverse.map digitChar) = _
  rw [show Nat.digits 10 (n * 10) = 0 :: Nat.digits 10 n from this]
  simp; decide

theorem showInt_mul_ten {n : Int} (h : n ≠ 0) : showInt (n * 10) = showInt n ++ ['0'] := by
  have e : (n * 10).natAbs = n.natAbs * 10 := by rw [Int.natAbs_mul]; rfl
  have h0 : n.natAbs ≠ 0 := by omega
  unfold showInt
  rw [e, showNat_mul_ten h0]
  by_cases hn : n < 0
  · rw [if_pos hn, if_pos (by omega)]; rfl
  · rw [if_neg hn, if_neg (by omega)]

theorem trimZeros_succ (k : Nat) (s : List Char) : trimZeros (k + 1) (s ++ ['0']) = trimZeros k s := by
  simp [trimZeros, dropZeros]

theorem trimZeros_zero (s : List Char) : trimZeros 0 s = s := by
  unfold trimZeros
  have : dropZeros 0 s.reverse = s.reverse := by
    cases s.reverse <;> rfl
  rw [this, List.reverse_reverse]

theorem hashText_pos {d s : Int} (hs : 0 < s) (hd : d ≠ 0) :
    (Dec.mk d s).hashText = trimZeros s.toNat (showInt d) := by
  unfold Dec.hashText; exact if_pos ⟨hs, hd⟩

theorem hashText_neg {d s : Int} (hs : s < 0) (hd : d ≠ 0) :
    (Dec.mk d s).hashText = showInt d ++ List.replicate s.natAbs '0' := by
  unfold Dec.hashText
  rw [if_neg (fun h => by have := h.1; simp only at this; omega)]; exact if_pos ⟨hs, hd⟩

theorem hashText_zero (d : Int) : (Dec.mk d 0).hashText = showInt d := by
  simp [Dec.hashText]

theorem hashText_step (d s : Int) : (Dec.mk (d * 10) (s + 1)).hashText = (Dec.mk d s).hashText := by
  by_cases hd : d = 0
  · subst hd; simp [Dec.hashText]
  have h10 : d * 10 ≠ 0 := by omega
  rcases lt_trichotomy s 0 with h | h | h
  · rw [hashText_neg h hd]
    by_cases h1 : s + 1 < 0
    · rw [hashText_neg h1 h10, showInt_mul_ten hd, List.append_assoc]
      have e : s.natAbs = (s + 1).natAbs + 1 := by omega
      rw [e, List.replicate_succ]; rfl
    · have : s = -1 := by omega
      subst this
      show (Dec.mk (d * 10) 0).hashText = _
      rw [hashText_zero, showInt_mul_ten hd]; rfl
  · subst h
    rw [hashText_zero, hashText_pos (by omega) h10, showInt_mul_ten hd]
    show trimZeros (0 + 1) _ = _
    rw [trimZeros_succ, trimZeros_zero]
  · rw [hashText_pos h hd, hashText_pos (by omega) h10, showInt_mul_ten hd]
    have e : (s + 1).toNat = s.toNat + 1 := by omega
    rw [e, trimZeros_succ]

theorem hashText_shift (d s : Int) (j : Nat) :
    (Dec.mk (d * 10 ^ j) (s + j)).hashText = (Dec.mk d s).hashText := by
  induction j with
  | zero => simp
  | succ j ih =>
    rw [← ih, ← hashText_step (d * 10 ^ j)]
    have e1 : d * 10 ^ (j + 1) = d * 10 ^ j * 10 := by rw [pow_succ]; ring
    have e2 : s + ((j + 1 : Nat) : Int) = s + j + 1 := by push_cast; ring
    rw [e1, e2]

theorem hashText_of_le {a b : Dec} (h : a.toRat = b.toRat) (hs : a.scale ≤ b.scale) :
    a.hashText = b.hashText := by
  obtain ⟨d, s⟩ := a
  obtain ⟨e, t⟩ := b
  obtain ⟨j, rfl⟩ : ∃ j : Nat, t = s + j := ⟨(t - s).toNat, by simp only at hs; omega⟩
  have : e = d * 10 ^ j := by
    have h1 : (d : ℚ) * 10 ^ (-s) = e * 10 ^ (-(s + j)) := h
    have h2 : (10 : ℚ) ^ (-s) = 10 ^ (-(s + j)) * 10 ^ j := by
      rw [← zpow_natCast, ← zpow_add₀ (by norm_num)]; congr 1; ring
    rw [h2] at h1
    have h3 : (10 : ℚ) ^ (-(s + (j : Int))) ≠ 0 := zpow_ne_zero _ (by norm_num)
    have h4 : (e : ℚ) = d * 10 ^ j := by
      apply mul_right_cancel₀ h3
      rw [← h1]; ring
    exact_mod_cast h4
  rw [this]
  exact (hashText_shift d s j).symm

theorem hashText_eq {a b : Dec} (h : a.toRat = b.toRat) : a.hashText = b.hashText := by
  rcases le_total a.scale b.scale with hs | hs
  · exact hashText_of_le h hs
  · exact (hashText_of_le h.symm hs).symm

end Verif.Core

namespace Verif.Cardano
open Verif.Core

/-- The order of texts: by characters, which is also the order of their UTF-8 bytes. -/
def strCmp (a b : List Char) : Ordering := List.compareLex (fun x y => compare x.toNat y.toNat) a b

/-- `PartialEq` of `TransactionAsset`, derived, transaction_asset.rs:5-13. -/
def TxAsset.eq (a b : TxAsset) : Bool :=
  a.policy == b.policy && a.name == b.name && a.fingerprint == b.fingerprint && a.quantity.eq b.quantity

/-- `Ord` of `TransactionAsset`, derived, transaction_asset.rs:5-13: by fields. -/
def TxAsset.cmp (a b : TxAsset) : Ordering :=
  (strCmp a.policy b.policy).then ((strCmp a.name b.name).then
    ((strCmp a.fingerprint b.fingerprint).then (a.quantity.cmp b.quantity)))

/-- `PartialEq` of `Vec<TransactionAsset>`. -/
def assetsEq : List TxAsset → List TxAsset → Bool
  | [], [] => true
  | a :: as, b :: bs => a.eq b && assetsEq as bs
  | _, _ => false

/-- `Ord` of `Option<String>`: `None` first. -/
def optCmp : Option (List Char) → Option (List Char) → Ordering
  | none, none => .eq
  | none, some _ => .lt
  | some _, none => .gt
  | some a, some b => strCmp a b

/-- `PartialEq` of `UTxOBuilder`, derived, utxo.rs:46-54. -/
def UtxoBuilder.eq (a b : UtxoBuilder) : Bool :=
  a.address == b.address && a.value.eq b.value && assetsEq a.assets b.assets && a.extra == b.extra

/-- `Ord` of `UTxOBuilder`, derived, utxo.rs:46-54: by fields. -/
def UtxoBuilder.cmp (a b : UtxoBuilder) : Ordering :=
  (strCmp a.address b.address).then ((a.value.cmp b.value).then
    ((List.compareLex TxAsset.cmp a.assets b.assets).then (optCmp a.extra b.extra)))

/-- `Display` of `UtxoPointer`, utxo.rs:20-29. -/
def pointerText (id : List Char) (index : U64) : List Char := id ++ '@' :: index.display

/-! ### Laws -/

theorem ratCmp_eq (x y : ℚ) : Dec.ratCmp x y = compare x y := by
  unfold Dec.ratCmp
  rcases lt_trichotomy x y with h | h | h
  · rw [if_pos h, compare_lt_iff_lt.mpr h]
  · subst h; simp
  · rw [if_neg (not_lt_of_gt h), if_neg (ne_of_gt h), compare_gt_iff_gt.mpr h]

instance valueCmp_trans {r : Rep} : Std.TransCmp (Value.cmp (r := r)) where
  eq_swap {a b} := by
    unfold Value.cmp; rw [Dec.cmp_eq, Dec.cmp_eq, ratCmp_eq, ratCmp_eq]
    exact Std.OrientedCmp.eq_swap
  isLE_trans {a b c} h1 h2 := by
    unfold Value.cmp at *; rw [Dec.cmp_eq, ratCmp_eq] at *
    exact Std.TransCmp.isLE_trans h1 h2

/-- Comparison through a function. -/
theorem onCmp_trans {α β : Type} {cmp : β → β → Ordering} [Std.TransCmp cmp] (f : α → β) :
    Std.TransCmp (fun a b => cmp (f a) (f b)) where
  eq_swap := Std.OrientedCmp.eq_swap (cmp := cmp)
  isLE_trans := Std.TransCmp.isLE_trans (cmp := cmp)

instance charCmp_trans : Std.TransCmp (fun x y : Char => compare x.toNat y.toNat) :=
  onCmp_trans (cmp := fun a b : Nat => compare a b) Char.toNat

instance charCmp_lawful : Std.LawfulEqCmp (fun x y : Char => compare x.toNat y.toNat) where
  eq_of_compare h := by
    have := Nat.compare_eq_eq.mp h
    exact Char.ext (UInt32.toNat_inj.mp this)
  compare_self := Std.ReflCmp.compare_self (cmp := fun a b : Nat => compare a b)

instance strCmp_trans : Std.TransCmp strCmp :=
  inferInstanceAs (Std.TransCmp (List.compareLex _))

instance strCmp_lawful : Std.LawfulEqCmp strCmp :=
  inferInstanceAs (Std.LawfulEqCmp (List.compareLex _))

instance assetCmp_trans : Std.TransCmp TxAsset.cmp :=
  have := onCmp_trans (cmp := strCmp) TxAsset.policy
  have := onCmp_trans (cmp := strCmp) TxAsset.name
  have := onCmp_trans (cmp := strCmp) TxAsset.fingerprint
  have := onCmp_trans (cmp := Value.cmp) TxAsset.quantity
  inferInstanceAs (Std.TransCmp (compareLex (fun a b : TxAsset => strCmp a.policy b.policy)
    (compareLex (fun a b : TxAsset => strCmp a.name b.name)
      (compareLex (fun a b : TxAsset => strCmp a.fingerprint b.fingerprint)
        (fun a b : TxAsset => Value.cmp a.quantity b.quantity)))))

instance optCmp_trans : Std.TransCmp optCmp where
  eq_swap {a b} := by
    cases a <;> cases b <;> simp [optCmp]
    exact Std.OrientedCmp.eq_swap (cmp := strCmp)
  isLE_trans {a b c} h1 h2 := by
    cases a <;> cases b <;> cases c <;> simp_all [optCmp]
    exact Std.TransCmp.isLE_trans (cmp := strCmp) h1 h2

instance builderCmp_trans : Std.TransCmp UtxoBuilder.cmp :=
  have := onCmp_trans (cmp := strCmp) UtxoBuilder.address
  have := onCmp_trans (cmp := Value.cmp) UtxoBuilder.value
  have := onCmp_trans (cmp := List.compareLex TxAsset.cmp) UtxoBuilder.assets
  have := onCmp_trans (cmp := optCmp) UtxoBuilder.extra
  inferInstanceAs (Std.TransCmp (compareLex (fun a b : UtxoBuilder => strCmp a.address b.address)
    (compareLex (fun a b : UtxoBuilder => Value.cmp a.value b.value)
      (compareLex (fun a b : UtxoBuilder => List.compareLex TxAsset.cmp a.assets b.assets)
        (fun a b : UtxoBuilder => optCmp a.extra b.extra)))))

/-- Two assets with the same identifiers and the same number (specification). -/
def TxAsset.Same (a b : TxAsset) : Prop :=
  a.policy = b.policy ∧ a.name = b.name ∧ a.fingerprint = b.fingerprint ∧
    a.quantity.toRat = b.quantity.toRat

/-- Two outputs with the same address and extra data, the same number of the main token and the
same assets in the same order (specification). -/
def UtxoBuilder.Same (a b : UtxoBuilder) : Prop :=
  a.address = b.address ∧ a.value.toRat = b.value.toRat ∧
    List.Forall₂ TxAsset.Same a.assets b.assets ∧ a.extra = b.extra

theorem valueCmp_eq {r : Rep} (a b : Value r) : a.cmp b = .eq ↔ a.toRat = b.toRat := by
  unfold Value.cmp; rw [Dec.cmp_eq, ratCmp_eq]; exact compare_eq_iff_eq

theorem valueEq_iff {r : Rep} (a b : Value r) : a.eq b = true ↔ a.toRat = b.toRat :=
  Dec.beq_iff _ _

theorem strCmp_eq (a b : List Char) : strCmp a b = .eq ↔ a = b :=
  Std.LawfulEqCmp.compare_eq_iff_eq (cmp := strCmp)

theorem assetCmp_eq (a b : TxAsset) : a.cmp b = .eq ↔ a.Same b := by
  unfold TxAsset.cmp TxAsset.Same
  simp only [Ordering.then_eq_eq, strCmp_eq, valueCmp_eq]

theorem assetEq_iff (a b : TxAsset) : a.eq b = true ↔ a.Same b := by
  unfold TxAsset.eq TxAsset.Same
  simp only [Bool.and_eq_true, beq_iff_eq, valueEq_iff, and_assoc]

theorem assetsCmp_eq : ∀ a b : List TxAsset,
    List.compareLex TxAsset.cmp a b = .eq ↔ List.Forall₂ TxAsset.Same a b
  | [], [] => by simp [List.compareLex_nil_nil]
  | [], b :: bs => by simp [List.compareLex_nil_cons]
  | a :: as, [] => by simp [List.compareLex_cons_nil]
  | a :: as, b :: bs => by
    rw [List.compareLex_cons_cons, Ordering.then_eq_eq, assetCmp_eq, assetsCmp_eq as bs,
      List.forall₂_cons]

theorem assetsEq_iff : ∀ a b : List TxAsset, assetsEq a b = true ↔ List.Forall₂ TxAsset.Same a b
  | [], [] => by simp [assetsEq]
  | [], b :: bs => by simp [assetsEq]
  | a :: as, [] => by simp [assetsEq]
  | a :: as, b :: bs => by
    rw [assetsEq, Bool.and_eq_true, assetEq_iff, assetsEq_iff as bs, List.forall₂_cons]

theorem optCmp_eq (a b : Option (List Char)) : optCmp a b = .eq ↔ a = b := by
  cases a <;> cases b <;> simp [optCmp, strCmp_eq]

theorem builderCmp_eq (a b : UtxoBuilder) : a.cmp b = .eq ↔ a.Same b := by
  unfold UtxoBuilder.cmp UtxoBuilder.Same
  simp only [Ordering.then_eq_eq, strCmp_eq, valueCmp_eq, assetsCmp_eq, optCmp_eq]

theorem builderEq_iff (a b : UtxoBuilder) : a.eq b = true ↔ a.Same b := by
  unfold UtxoBuilder.eq UtxoBuilder.Same
  simp only [Bool.and_eq_true, beq_iff_eq, valueEq_iff, assetsEq_iff, and_assoc]

/-! ### The text of a pointer -/

/-- The characters of a printed number are digits. -/
theorem display_no_at (n : U64) : '@' ∉ n.display := by
  unfold U64.display showNat
  split
  · decide
  · intro h
    simp only [List.mem_map, List.mem_reverse] at h
    obtain ⟨d, hd, he⟩ := h
    have : d < 10 := Nat.digits_lt_base (by norm_num) hd
    have key : ∀ d < 10, digitChar d ≠ '@' := by decide
    exact key d this he

theorem split_last {a b x y : List Char} (hx : '@' ∉ x) (hy : '@' ∉ y)
    (h : a ++ '@' :: x = b ++ '@' :: y) : a = b ∧ x = y := by
  have h' := congrArg List.reverse h
  simp only [List.reverse_append, List.reverse_cons, List.append_assoc, List.singleton_append] at h'
  have key : ∀ (u v s t : List Char), '@' ∉ u → '@' ∉ v → u ++ '@' :: s = v ++ '@' :: t → u = v ∧ s = t := by
    intro u
    induction u with
    | nil =>
      intro v s t _ hv e
      cases v with
      | nil => simpa using e
      | cons c v => simp at e; exact absurd e.1 (fun h => hv (by rw [← h]; exact List.mem_cons_self))
    | cons c u ih =>
      intro v s t hu hv e
      cases v with
      | nil => simp at e; exact absurd e.1 (fun h => hu (by rw [← h]; exact List.mem_cons_self))
      | cons c' v =>
        simp only [List.cons_append, List.cons.injEq] at e
        have := ih v s t (fun h => hu (List.mem_cons_of_mem _ h)) (fun h => hv (List.mem_cons_of_mem _ h)) e.2
        exact ⟨by rw [e.1, this.1], this.2⟩
  have := key x.reverse y.reverse a.reverse b.reverse (by simpa using hx) (by simpa using hy) h'
  exact ⟨List.reverse_injective this.2, List.reverse_injective this.1⟩

end Verif.Cardano
