import Verif.Props.Store

/-!
# Stores that hold the same UTxOs cannot be told apart (C120)
-/

namespace Verif.Props

open Verif Verif.Core

/-- Every query that does not sort by an asset answers the same; listings in any order. -/
structure SameSeen (st1 st2 : UStore) : Prop where
  len : st1.len = st2.len
  isEmpty : st1.isEmpty = st2.isEmpty
  contains : ∀ p, st1.contains p = st2.contains p
  get : ∀ p, st1.get p = st2.get p
  iter : st1.iter.Perm st2.iter
  balance : st1.balance = st2.balance
  tokens : ∀ t, st1.containsToken t = st2.containsToken t
  number : ∀ t, st1.numberUtxosForToken t = st2.numberUtxosForToken t
  iterToken : ∀ t, (st1.iterToken t).Perm (st2.iterToken t)
  byMain : st1.iterOrderedByMain.map (·.value) = st2.iterOrderedByMain.map (·.value)

/-- Every query about a token answers the same: its balance, and the amounts in both ordered listings. -/
structure SameToken (t : Token) (st1 st2 : UStore) : Prop where
  balance : st1.balanceOf t = st2.balanceOf t
  ordered : (st1.iterTokenOrdered t).Perm (st2.iterTokenOrdered t) ∧
    (st1.iterTokenOrdered t).map (held t) = (st2.iterTokenOrdered t).map (held t)
  reverse : (st1.iterTokenOrderedRev t).Perm (st2.iterTokenOrderedRev t) ∧
    (st1.iterTokenOrderedRev t).map (held t) = (st2.iterTokenOrderedRev t).map (held t)

theorem runHistory_append (st : UStore) (a b : List StoreOp) : (runHistory st (a ++ b)).2 = (runHistory (runHistory st a).2 b).2 ∧
    (runHistory st (a ++ b)).1 = (runHistory st a).1 ++ (runHistory (runHistory st a).2 b).1 := by
  induction a generalizing st with
  | nil => exact ⟨rfl, rfl⟩
  | cons o os ih => exact ⟨(ih _).1, by simp only [List.cons_append, runHistory, (ih _).2]⟩

theorem specHistory_append (L : List Utxo) (a b : List StoreOp) :
    (specHistory L (a ++ b)).2 = (specHistory (specHistory L a).2 b).2 := by
  induction a generalizing L with
  | nil => rfl
  | cons o os ih => exact ih _

theorem spec_perm {L1 L2 : List Utxo} (h : L1.Perm L2) (o : StoreOp) :
    (o.spec L1).1 = (o.spec L2).1 ∧ (o.spec L1).2.Perm (o.spec L2).2 := by
  cases o with
  | insert u =>
    have : (∃ w ∈ L1, w.ptr = u.ptr) ↔ ∃ w ∈ L2, w.ptr = u.ptr := by simp only [h.mem_iff]
    simp only [StoreOp.spec, this]
    split
    · exact ⟨rfl, h⟩
    · exact ⟨rfl, h.append_right _⟩
  | remove p =>
    have : (∃ w ∈ L1, w.ptr = p) ↔ ∃ w ∈ L2, w.ptr = p := by simp only [h.mem_iff]
    simp only [StoreOp.spec, this]
    split
    · exact ⟨rfl, h.filter _⟩
    · exact ⟨rfl, h⟩

theorem specHistory_perm {L1 L2 : List Utxo} (h : L1.Perm L2) (ops : List StoreOp) :
    (specHistory L1 ops).1 = (specHistory L2 ops).1 ∧ (specHistory L1 ops).2.Perm (specHistory L2 ops).2 := by
  induction ops generalizing L1 L2 with
  | nil => exact ⟨rfl, h⟩
  | cons o os ih =>
    obtain ⟨h1, h2⟩ := spec_perm h o
    obtain ⟨h3, h4⟩ := ih h2
    exact ⟨by simp only [specHistory, h1, h3], h4⟩

/-- Two histories after which every lookup answers the same leave the same UTxOs. -/
theorem same_contents {ops1 ops2 : List StoreOp}
    (h : ∀ p, (runHistory UStore.new ops1).2.get p = (runHistory UStore.new ops2).2.get p) :
    (specHistory [] ops1).2.Perm (specHistory [] ops2).2 := by
  obtain ⟨_, n1, _, _, _, g1, _⟩ := C34_contents ops1
  obtain ⟨_, n2, _, _, _, g2, _⟩ := C34_contents ops2
  refine (List.perm_ext_iff_of_nodup (List.Nodup.of_map _ n1) (List.Nodup.of_map _ n2)).2 (fun u => ?_)
  have e1 := g1 u.ptr u
  have e2 := g2 u.ptr u
  rw [h] at e1
  constructor
  · intro hu; exact (e2.1 (e1.2 ⟨hu, rfl⟩)).1
  · intro hu; exact (e1.1 (e2.2 ⟨hu, rfl⟩)).1

/-- Two sorted lists with the same entries show the same amounts. -/
theorem sorted_amounts {l1 l2 : List Utxo} {f : Utxo → ℚ} (hp : l1.Perm l2) (h1 : l1.Pairwise (fun a b => f a ≤ f b))
    (h2 : l2.Pairwise (fun a b => f a ≤ f b)) : l1.map f = l2.map f :=
  (hp.map f).eq_of_pairwise (fun _ _ _ _ => le_antisymm) (List.pairwise_map.2 h1) (List.pairwise_map.2 h2)

theorem sorted_amounts_rev {l1 l2 : List Utxo} {f : Utxo → ℚ} (hp : l1.Perm l2) (h1 : l1.Pairwise (fun a b => f b ≤ f a))
    (h2 : l2.Pairwise (fun a b => f b ≤ f a)) : l1.map f = l2.map f :=
  (hp.map f).eq_of_pairwise (fun _ _ _ _ h h' => le_antisymm h' h) (List.pairwise_map.2 h1) (List.pairwise_map.2 h2)

theorem seen_of_perm {ops1 ops2 : List StoreOp} (h : (specHistory [] ops1).2.Perm (specHistory [] ops2).2) :
    SameSeen (runHistory UStore.new ops1).2 (runHistory UStore.new ops2).2 := by
  obtain ⟨_, n1, l1, e1, c1, g1, i1⟩ := C34_contents ops1
  obtain ⟨_, n2, l2, e2, c2, g2, i2⟩ := C34_contents ops2
  refine ⟨by rw [l1, l2, h.length_eq], ?_, fun p => ?_, fun p => ?_, i1.trans ((h.map _).trans i2.symm), ?_, fun t => ?_, fun t => ?_,
    fun t => ?_, ?_⟩
  · rw [e1, e2, Bool.eq_iff_iff, List.isEmpty_iff, List.isEmpty_iff]
    exact ⟨fun e => by rw [e] at h; exact h.nil_eq.symm, fun e => by rw [e] at h; exact h.eq_nil⟩
  · rw [Bool.eq_iff_iff, c1, c2]
    simp only [h.mem_iff]
  · refine Option.ext (fun u => ?_)
    rw [g1, g2, h.mem_iff]
  · rw [(C35_listing ops1 0).1, (C35_listing ops2 0).1]
    exact (h.map _).sum_eq
  · rw [Bool.eq_iff_iff, (C35_listing ops1 t).2.2.2, (C35_listing ops2 t).2.2.2]
    simp only [h.mem_iff]
  · rw [(C35_listing ops1 t).2.2.1, (C35_listing ops2 t).2.2.1]
    exact (h.filter _).length_eq
  · exact (C35_listing ops1 t).2.1.trans (((h.filter _).map _).trans (C35_listing ops2 t).2.1.symm)
  · obtain ⟨_, _, a1, a2⟩ := C36_ordered_exact ops1 0
    obtain ⟨_, _, b1, b2⟩ := C36_ordered_exact ops2 0
    exact sorted_amounts (a1.trans (h.trans b1.symm)) a2 b2

/-- C120: if every lookup answers the same after two histories, then every later history gives the same answers on both stores, and
afterwards every query does. -/
theorem C120_same (ops1 ops2 later : List StoreOp)
    (h : ∀ p, (runHistory UStore.new ops1).2.get p = (runHistory UStore.new ops2).2.get p) :
    (runHistory (runHistory UStore.new ops1).2 later).1 = (runHistory (runHistory UStore.new ops2).2 later).1 ∧
    SameSeen (runHistory (runHistory UStore.new ops1).2 later).2 (runHistory (runHistory UStore.new ops2).2 later).2 := by
  have hp := same_contents h
  have h1 := contents_history (contents_history Contents.new ops1).2 later
  have h2 := contents_history (contents_history Contents.new ops2).2 later
  have h3 := specHistory_perm hp later
  refine ⟨by rw [h1.1, h2.1, h3.1], ?_⟩
  rw [← (runHistory_append _ ops1 later).1, ← (runHistory_append _ ops2 later).1]
  refine seen_of_perm ?_
  rw [specHistory_append, specHistory_append]
  exact h3.2

/-- C120 for a token that no inserted UTxO names twice: its balance and its ordered listings. Missing: UTxOs that name it twice, see
`C120_duplicates_false`. -/
theorem C120_token_partial (ops1 ops2 later : List StoreOp) (t : Token) (n1 : NamedOnce t (ops1 ++ later))
    (n2 : NamedOnce t (ops2 ++ later))
    (h : ∀ p, (runHistory UStore.new ops1).2.get p = (runHistory UStore.new ops2).2.get p) :
    SameToken t (runHistory (runHistory UStore.new ops1).2 later).2 (runHistory (runHistory UStore.new ops2).2 later).2 := by
  have hp := (specHistory_perm (same_contents h) later).2
  rw [← specHistory_append, ← specHistory_append] at hp
  rw [← (runHistory_append _ ops1 later).1, ← (runHistory_append _ ops2 later).1]
  obtain ⟨a1, a2, a3, a4⟩ := C36_ordered_partial _ t n1
  obtain ⟨b1, b2, b3, b4⟩ := C36_ordered_partial _ t n2
  have q1 := a1.trans ((hp.filter _).trans b1.symm)
  have q2 := a3.trans ((hp.filter _).trans b3.symm)
  refine ⟨?_, ⟨q1, sorted_amounts q1 a2 b2⟩, ⟨q2, sorted_amounts_rev q2 a4 b4⟩⟩
  rw [C35_balances_partial _ t n1, C35_balances_partial _ t n2]
  simp only [hp.mem_iff, (hp.map (held t)).sum_eq]

/-- C120: a UTxO that is inserted and removed again leaves no trace, and neither does one that is removed and put back. -/
theorem C120_undo (ops later : List StoreOp) (u : Utxo) :
    ((runHistory UStore.new ops).2.contains u.ptr = false →
      (runHistory (runHistory UStore.new (ops ++ [.insert u, .remove u.ptr])).2 later).1 =
        (runHistory (runHistory UStore.new ops).2 later).1 ∧
      SameSeen (runHistory (runHistory UStore.new (ops ++ [.insert u, .remove u.ptr])).2 later).2
        (runHistory (runHistory UStore.new ops).2 later).2) ∧
    ((runHistory UStore.new ops).2.get u.ptr = some u →
      (runHistory (runHistory UStore.new (ops ++ [.remove u.ptr, .insert u])).2 later).1 =
        (runHistory (runHistory UStore.new ops).2 later).1 ∧
      SameSeen (runHistory (runHistory UStore.new (ops ++ [.remove u.ptr, .insert u])).2 later).2
        (runHistory (runHistory UStore.new ops).2 later).2) := by
  obtain ⟨_, n, _, _, c, g, _⟩ := C34_contents ops
  constructor
  · intro hu
    have hno : ¬ ∃ w ∈ (specHistory [] ops).2, w.ptr = u.ptr := fun e => by rw [(c _).2 e] at hu; cases hu
    refine C120_same _ _ later (seen_of_perm ?_).get
    rw [specHistory_append]
    simp only [specHistory]
    have e1 : (StoreOp.spec (specHistory [] ops).2 (.insert u)).2 = (specHistory [] ops).2 ++ [u] := by
      simp only [StoreOp.spec, if_neg hno]
    rw [e1]
    have e2 : ∃ w ∈ (specHistory [] ops).2 ++ [u], w.ptr = u.ptr := ⟨u, by simp, rfl⟩
    simp only [StoreOp.spec, if_pos e2, List.filter_append]
    rw [List.filter_eq_self.2 (fun w hw => by simpa using fun e => hno ⟨w, hw, e⟩)]
    simp
  · intro hu
    have hmem := ((g _ _).1 hu).1
    refine C120_same _ _ later (seen_of_perm ?_).get
    rw [specHistory_append]
    generalize (specHistory [] ops).2 = L at n hmem
    simp only [specHistory]
    have e1 : ∃ w ∈ L, w.ptr = u.ptr := ⟨u, hmem, rfl⟩
    have e2 : (StoreOp.spec L (.remove u.ptr)).2 = L.filter (fun w => w.ptr ≠ u.ptr) := by simp only [StoreOp.spec, if_pos e1]
    rw [e2]
    have e3 : ¬ ∃ w ∈ L.filter (fun w => w.ptr ≠ u.ptr), w.ptr = u.ptr := by
      rintro ⟨w, hw, e⟩
      simp [e] at hw
    simp only [StoreOp.spec, if_neg e3]
    refine (List.perm_ext_iff_of_nodup ?_ (List.Nodup.of_map _ n)).2 (fun w => ?_)
    · refine List.nodup_append.2 ⟨(List.Nodup.of_map _ n).filter _, by simp, ?_⟩
      intro a ha b hb
      rw [List.mem_singleton] at hb
      rintro rfl
      subst hb
      simp at ha
    · rw [List.mem_append, List.mem_singleton, List.mem_filter]
      constructor
      · rintro (⟨hw, _⟩ | rfl)
        · exact hw
        · exact hmem
      · intro hw
        by_cases e : w.ptr = u.ptr
        · exact .inr (List.inj_on_of_nodup_map n hw hmem e)
        · exact .inl ⟨hw, by simpa using e⟩

/-! ### Concrete cases -/

/-- Two UTxOs in either order, one of them put back in between. -/
def sameOps1 : List StoreOp := [.insert ⟨1, 5, [⟨7, 2, 0, 0⟩], 0⟩, .insert ⟨2, 9, [⟨7, 1, 0, 0⟩], 0⟩]
def sameOps2 : List StoreOp := [.insert ⟨2, 9, [⟨7, 1, 0, 0⟩], 0⟩, .insert ⟨1, 5, [⟨7, 2, 0, 0⟩], 0⟩, .remove 2,
  .insert ⟨2, 9, [⟨7, 1, 0, 0⟩], 0⟩]

theorem same_get : ∀ p, (runHistory UStore.new sameOps1).2.get p = (runHistory UStore.new sameOps2).2.get p := by
  have : (specHistory [] sameOps1).2.Perm (specHistory [] sameOps2).2 := by
    have e1 : (specHistory [] sameOps1).2 = [⟨1, 5, [⟨7, 2, 0, 0⟩], 0⟩, ⟨2, 9, [⟨7, 1, 0, 0⟩], 0⟩] := by
      simp [sameOps1, specHistory, StoreOp.spec]
    have e2 : (specHistory [] sameOps2).2 = [⟨1, 5, [⟨7, 2, 0, 0⟩], 0⟩, ⟨2, 9, [⟨7, 1, 0, 0⟩], 0⟩] := by
      simp [sameOps2, specHistory, StoreOp.spec]
    rw [e1, e2]
  exact (seen_of_perm this).get

example (later : List StoreOp) : SameSeen (runHistory (runHistory UStore.new sameOps1).2 later).2
    (runHistory (runHistory UStore.new sameOps2).2 later).2 := (C120_same _ _ later same_get).2

example : SameToken 7 (runHistory (runHistory UStore.new sameOps1).2 [.remove 1]).2
    (runHistory (runHistory UStore.new sameOps2).2 [.remove 1]).2 := by
  refine C120_token_partial _ _ _ 7 ?_ ?_ same_get
  · intro u hu
    simp only [sameOps1, List.cons_append, List.nil_append, List.mem_cons, StoreOp.insert.injEq, List.not_mem_nil, or_false,
      reduceCtorEq] at hu
    rcases hu with rfl | rfl <;> simp [mentions, mainToken]
  · intro u hu
    simp only [sameOps2, List.cons_append, List.nil_append, List.mem_cons, StoreOp.insert.injEq, List.not_mem_nil, or_false,
      reduceCtorEq, false_or] at hu
    rcases hu with rfl | rfl | rfl <;> simp [mentions, mainToken]

/-- The names of an asset can tell stores apart: those of the first UTxO stay, although it is gone. -/
theorem C120_names_false : ¬ ∀ (ops1 ops2 : List StoreOp) (t : Token),
    (∀ p, (runHistory UStore.new ops1).2.get p = (runHistory UStore.new ops2).2.get p) →
    (runHistory UStore.new ops1).2.getAssetIds t = (runHistory UStore.new ops2).2.getAssetIds t := by
  intro h
  have := h [.insert ⟨1, 5, [⟨7, 2, 10, 11⟩], 0⟩, .remove 1, .insert ⟨2, 5, [⟨7, 2, 20, 21⟩], 0⟩]
    [.insert ⟨2, 5, [⟨7, 2, 20, 21⟩], 0⟩] 7 (seen_of_perm (by simp [specHistory, StoreOp.spec])).get
  rw [C56_asset_names, C56_asset_names] at this
  revert this
  simp [insertedAssets, StoreOp.spec]

/-- A UTxO that names an asset twice leaves a trace in its balance after it is removed. -/
theorem C120_duplicates_false : ¬ ∀ (ops1 ops2 : List StoreOp) (t : Token),
    (∀ p, (runHistory UStore.new ops1).2.get p = (runHistory UStore.new ops2).2.get p) →
    (runHistory UStore.new ops1).2.balanceOf t = (runHistory UStore.new ops2).2.balanceOf t := by
  intro h
  have := h dupOps [.insert ⟨2, 10, [⟨1, 3, 0, 0⟩], 0⟩] 1 (seen_of_perm (by simp [dupOps, specHistory, StoreOp.spec])).get
  rw [C35_duplicate_assets_false.2, C35_balances_partial _ _ (by
    intro u hu
    simp only [List.mem_singleton, StoreOp.insert.injEq] at hu
    subst hu
    simp [mentions, mainToken])] at this
  revert this
  norm_num [specHistory, StoreOp.spec, held, Holds, mainToken]

end Verif.Props
