import Verif.Multiverse.Model
import Mathlib.Tactic.Linarith
import Mathlib.Tactic.Ring

/-!
# The database keys

The byte order of the keys is the order by number and identifier.
-/

namespace Verif.Multiverse

open Verif.Ilm (be be_length)

theorem digits_lt {P q q' r r' : Nat} (hr : r < P) (hr' : r' < P) :
    r + P * q < r' + P * q' ↔ q < q' ∨ q = q' ∧ r < r' := by
  rcases Nat.lt_trichotomy q q' with h | rfl | h
  · refine ⟨fun _ => .inl h, fun _ => ?_⟩
    calc r + P * q < P + P * q := by omega
      _ = P * (q + 1) := by ring
      _ ≤ P * q' := Nat.mul_le_mul_left _ h
      _ ≤ r' + P * q' := by omega
  · simp
  · constructor
    · intro h1
      exfalso
      have : r' + P * q' < r + P * q := by
        calc r' + P * q' < P + P * q' := by omega
          _ = P * (q' + 1) := by ring
          _ ≤ P * q := Nat.mul_le_mul_left _ h
          _ ≤ r + P * q := by omega
      omega
    · rintro (h1 | h1) <;> omega

theorem digits_eq {P q q' r r' : Nat} (hr : r < P) (hr' : r' < P) :
    r + P * q = r' + P * q' ↔ q = q' ∧ r = r' := by
  have h1 := digits_lt (q := q) (q' := q') hr hr'
  have h2 := digits_lt (q := q') (q' := q) hr' hr
  constructor
  · intro h
    have h3 : ¬ (q < q' ∨ q = q' ∧ r < r') := by rw [← h1]; omega
    have h4 : ¬ (q' < q ∨ q' = q ∧ r' < r) := by rw [← h2]; omega
    omega
  · rintro ⟨rfl, rfl⟩
    rfl

theorem be_append_lt (k : Nat) {n n' : Nat} {s s' : List UInt8} :
    be k n ++ s < be k n' ++ s' ↔
      n % 256 ^ k < n' % 256 ^ k ∨ (n % 256 ^ k = n' % 256 ^ k ∧ s < s') := by
  induction k with
  | zero => simp [be, Nat.mod_one]
  | succ k ih =>
    have hpos : 0 < 256 ^ k := Nat.pos_of_ne_zero (by positivity)
    have hr := Nat.mod_lt n hpos
    have hr' := Nat.mod_lt n' hpos
    simp only [be, List.cons_append, List.cons_lt_cons_iff, ih]
    rw [Nat.mod_pow_succ, Nat.mod_pow_succ, digits_lt hr hr', digits_eq hr hr', UInt8.lt_iff_toNat_lt,
      ← UInt8.toNat_inj]
    simp only [UInt8.toNat_ofNat']
    have e : 2 ^ 8 = 256 := rfl
    rw [e]
    generalize n / 256 ^ k % 256 = q
    generalize n' / 256 ^ k % 256 = q'
    generalize n % 256 ^ k = r
    generalize n' % 256 ^ k = r'
    tauto

/-- The byte order of the keys. -/
theorem mkKey_lt {n n' : Nat} (hn : n < 2 ^ 64) (hn' : n' < 2 ^ 64) {i i' : Key} :
    mkKey n i < mkKey n' i' ↔ n < n' ∨ n = n' ∧ i < i' := by
  unfold mkKey
  have e : 256 ^ 8 = 2 ^ 64 := by norm_num
  rw [be_append_lt, e, Nat.mod_eq_of_lt hn, Nat.mod_eq_of_lt hn', List.cons_lt_cons_iff]
  have : ¬ (45 : UInt8) < 45 := by decide
  simp [this]

theorem mkKey_inj {n n' : Nat} (hn : n < 2 ^ 64) (hn' : n' < 2 ^ 64) {i i' : Key}
    (h : mkKey n i = mkKey n' i') : n = n' ∧ i = i' := by
  have h1 := mkKey_lt hn hn' (i := i) (i' := i')
  have h2 := mkKey_lt hn' hn (i := i') (i' := i)
  rw [h] at h1
  rw [h] at h2
  have h3 : ¬ mkKey n' i' < mkKey n' i' := List.lt_irrefl _
  rcases Std.lt_trichotomy i i' with h4 | h4 | h4
  · have : ¬ n = n' := fun hh => h3 (h1.2 (.inr ⟨hh, h4⟩))
    have : ¬ n < n' := fun hh => h3 (h1.2 (.inl hh))
    have : ¬ n' < n := fun hh => h3 (h2.2 (.inl hh))
    omega
  · have : ¬ n < n' := fun hh => h3 (h1.2 (.inl hh))
    have : ¬ n' < n := fun hh => h3 (h2.2 (.inl hh))
    exact ⟨by omega, h4⟩
  · have : ¬ n' = n := fun hh => h3 (h2.2 (.inr ⟨hh, h4⟩))
    have : ¬ n < n' := fun hh => h3 (h1.2 (.inl hh))
    have : ¬ n' < n := fun hh => h3 (h2.2 (.inl hh))
    omega

/-! ### Iteration in key order -/

theorem insertSorted_perm (x : List UInt8 × Block) : ∀ l, (insertSorted x l).Perm (x :: l)
  | [] => .refl _
  | y :: ys => by
    rw [insertSorted]
    split
    · exact .refl _
    · exact ((insertSorted_perm x ys).cons y).trans (List.Perm.swap x y ys)

theorem dbSorted_perm : ∀ db : AMap (List UInt8) Block, (dbSorted db).Perm db
  | [] => .refl _
  | x :: xs => (insertSorted_perm x _).trans ((dbSorted_perm xs).cons x)

theorem insertSorted_sorted (x : List UInt8 × Block) : ∀ {l : List (List UInt8 × Block)},
    l.Pairwise (fun a b => a.1 < b.1) → (∀ y ∈ l, y.1 ≠ x.1) →
    (insertSorted x l).Pairwise (fun a b => a.1 < b.1)
  | [], _, _ => by simp [insertSorted]
  | y :: ys, h, hne => by
    rw [List.pairwise_cons] at h
    rw [insertSorted]
    split
    · rename_i hlt
      rw [List.pairwise_cons, List.pairwise_cons]
      refine ⟨fun z hz => ?_, h⟩
      rcases List.mem_cons.1 hz with rfl | hz
      · exact hlt
      · exact List.lt_trans hlt (h.1 z hz)
    · rename_i hlt
      rw [List.pairwise_cons]
      refine ⟨fun z hz => ?_, insertSorted_sorted x h.2 (fun z hz => hne z (List.mem_cons_of_mem _ hz))⟩
      rcases List.mem_cons.1 ((insertSorted_perm x ys).mem_iff.1 hz) with rfl | hz
      · rcases Std.lt_trichotomy y.1 z.1 with h1 | h1 | h1
        · exact h1
        · exact absurd h1 (hne y (by simp))
        · exact absurd h1 hlt
      · exact h.1 z hz

theorem dbSorted_sorted : ∀ {db : AMap (List UInt8) Block}, db.keys.Nodup →
    (dbSorted db).Pairwise (fun a b => a.1 < b.1)
  | [], _ => .nil
  | x :: xs, h => by
    rw [AMap.keys_cons, List.nodup_cons] at h
    refine insertSorted_sorted x (dbSorted_sorted h.2) fun y hy he => h.1 ?_
    rw [← he]
    exact List.mem_map.2 ⟨y, (dbSorted_perm xs).mem_iff.1 hy, rfl⟩

end Verif.Multiverse
