import Verif.Core.Utxo

/-!
# Lemmas about the UTxO store
-/

namespace Verif.Core

open AMap

/-- The map from pointers to the UTxOs of a list, in list order. -/
def ptrMap (L : List Utxo) : AMap Pointer Utxo := L.map (fun u => (u.ptr, u))

theorem keys_ptrMap (L : List Utxo) : (ptrMap L).keys = L.map (·.ptr) := by
  simp [ptrMap, keys, Function.comp_def]

theorem erase_ptrMap (L : List Utxo) (p : Pointer) :
    (ptrMap L).erase p = ptrMap (L.filter (fun u => u.ptr ≠ p)) := by
  unfold ptrMap AMap.erase
  rw [List.filter_map]; rfl

theorem insert_ptrMap {L : List Utxo} {u : Utxo} (h : ∀ w ∈ L, w.ptr ≠ u.ptr) :
    (ptrMap L).insert u.ptr u = ptrMap (L ++ [u]) := by
  rw [insert_absent]
  · simp [ptrMap]
  · rw [keys_ptrMap]
    intro hc
    obtain ⟨w, hw, he⟩ := List.mem_map.mp hc
    exact h w hw he

theorem ptrMap_eq_nil {L : List Utxo} : ptrMap L = [] ↔ L = [] := by simp [ptrMap]

theorem get_ptrMap {L : List Utxo} (hn : (L.map (·.ptr)).Nodup) {p : Pointer} {u : Utxo} :
    (ptrMap L).get p = some u ↔ u ∈ L ∧ u.ptr = p := by
  rw [get_iff_mem (by rw [keys_ptrMap]; exact hn)]
  simp only [ptrMap, List.mem_map, Prod.mk.injEq]
  constructor
  · rintro ⟨w, hw, rfl, rfl⟩; exact ⟨hw, rfl⟩
  · rintro ⟨h1, h2⟩; exact ⟨u, h1, h2, rfl⟩

theorem get_ptrMap_none {L : List Utxo} {p : Pointer} :
    (ptrMap L).get p = none ↔ ∀ w ∈ L, w.ptr ≠ p := by
  rw [get_eq_none_iff, keys_ptrMap]
  simp

/-! ### The ordered index -/

/-- Keys of a sorted index are strictly increasing. -/
def SortedKeys (o : List (ℚ × AMap Pointer Utxo)) : Prop := (o.map (·.1)).Pairwise (· < ·)

theorem SortedKeys.tail {a : ℚ × AMap Pointer Utxo} {o : List (ℚ × AMap Pointer Utxo)}
    (h : SortedKeys (a :: o)) : SortedKeys o := by
  unfold SortedKeys at *; simp only [List.map_cons, List.pairwise_cons] at h; exact h.2

theorem SortedKeys.head_lt {a : ℚ × AMap Pointer Utxo} {o : List (ℚ × AMap Pointer Utxo)}
    (h : SortedKeys (a :: o)) : ∀ b ∈ o, a.1 < b.1 := by
  unfold SortedKeys at *
  simp only [List.map_cons, List.pairwise_cons, List.mem_map] at h
  intro b hb
  exact h.1 _ ⟨b, hb, rfl⟩

theorem get_none_of_lt {o : List (ℚ × AMap Pointer Utxo)} {v : ℚ} (h : ∀ b ∈ o, v < b.1) :
    AMap.get o v = none := by
  rw [get_eq_none_iff]
  intro hc
  obtain ⟨b, hb, he⟩ := List.mem_map.mp hc
  have := h b hb
  exact absurd he (ne_of_gt this)

theorem get_bucketAdd (v : ℚ) (u : Utxo) (o : List (ℚ × AMap Pointer Utxo)) (ho : SortedKeys o)
    (w : ℚ) :
    AMap.get (USet.bucketAdd v u o) w =
      if v = w then some (((AMap.get o v).getD []).insert u.ptr u) else AMap.get o w := by
  induction o with
  | nil => simp [USet.bucketAdd, AMap.get, AMap.insert]
  | cons a o ih =>
    obtain ⟨x, b⟩ := a
    simp only [USet.bucketAdd]
    by_cases h1 : v < x
    · have hnone : AMap.get ((x, b) :: o) v = none := by
        apply get_none_of_lt
        intro c hc
        rcases List.mem_cons.mp hc with rfl | hc
        · exact h1
        · exact lt_trans h1 (ho.head_lt c hc)
      rw [if_pos h1, hnone, AMap.get_cons]
      simp [AMap.insert]
    · rw [if_neg h1]
      by_cases h2 : v = x
      · subst h2
        simp only [if_true, AMap.get_cons, Option.getD_some]
        by_cases h3 : v = w <;> simp [h3]
      · rw [if_neg h2, AMap.get_cons, ih ho.tail, AMap.get_cons, AMap.get_cons]
        by_cases h3 : x = w
        · subst h3; simp [h2]
        · have : ¬ x = v := fun e => h2 e.symm
          simp [h3, this]

theorem mem_keys_bucketAdd {v : ℚ} {u : Utxo} {o : List (ℚ × AMap Pointer Utxo)} {w : ℚ}
    (h : w ∈ (USet.bucketAdd v u o).map (·.1)) : w = v ∨ w ∈ o.map (·.1) := by
  induction o with
  | nil => simp [USet.bucketAdd] at h; exact Or.inl h
  | cons a o ih =>
    obtain ⟨x, b⟩ := a
    simp only [USet.bucketAdd] at h
    split at h
    · simpa using h
    · split at h
      · right; simpa using h
      · simp only [List.map_cons, List.mem_cons] at h ⊢
        rcases h with h | h
        · exact Or.inr (Or.inl h)
        · rcases ih h with h | h
          · exact Or.inl h
          · exact Or.inr (Or.inr h)

theorem sorted_bucketAdd (v : ℚ) (u : Utxo) (o : List (ℚ × AMap Pointer Utxo)) (ho : SortedKeys o) :
    SortedKeys (USet.bucketAdd v u o) := by
  induction o with
  | nil => simp [USet.bucketAdd, SortedKeys]
  | cons a o ih =>
    obtain ⟨x, b⟩ := a
    simp only [USet.bucketAdd]
    split
    · rename_i h1
      unfold SortedKeys
      rw [List.map_cons, List.pairwise_cons]
      refine ⟨?_, ho⟩
      intro w hw
      obtain ⟨c, hc, rfl⟩ := List.mem_map.mp hw
      rcases List.mem_cons.mp hc with rfl | hc
      · exact h1
      · exact lt_trans h1 (ho.head_lt c hc)
    · rename_i h1
      split
      · exact ho
      · rename_i h2
        unfold SortedKeys
        rw [List.map_cons, List.pairwise_cons]
        refine ⟨?_, ih ho.tail⟩
        intro w hw
        rcases mem_keys_bucketAdd hw with rfl | hw
        · exact lt_of_le_of_ne (not_lt.mp h1) (Ne.symm h2)
        · obtain ⟨c, hc, rfl⟩ := List.mem_map.mp hw
          exact ho.head_lt c hc

theorem get_bucketRemove (v : ℚ) (p : Pointer) (o : List (ℚ × AMap Pointer Utxo))
    (ho : SortedKeys o) (w : ℚ) :
    AMap.get (USet.bucketRemove v p o) w =
      if v = w then
        (AMap.get o v).bind (fun b => if b.erase p = [] then none else some (b.erase p))
      else AMap.get o w := by
  induction o with
  | nil => simp [USet.bucketRemove]
  | cons a o ih =>
    obtain ⟨x, b⟩ := a
    simp only [USet.bucketRemove]
    have htail : AMap.get o x = none := get_none_of_lt ho.head_lt
    by_cases h1 : v = x
    · subst h1
      simp only [if_true, AMap.get_cons]
      by_cases h2 : b.erase p = []
      · simp only [h2, if_true]
        by_cases h3 : v = w
        · subst h3; simp [htail, h2]
        · simp [h3]
      · simp only [h2, if_false, AMap.get_cons]
        by_cases h3 : v = w
        · subst h3; simp [h2]
        · simp [h3]
    · rw [if_neg h1, AMap.get_cons, ih ho.tail, AMap.get_cons, AMap.get_cons]
      by_cases h3 : x = w
      · subst h3; simp [h1]
      · have : ¬ x = v := fun e => h1 e.symm
        simp [h3, this]

theorem mem_keys_bucketRemove {v : ℚ} {p : Pointer} {o : List (ℚ × AMap Pointer Utxo)} {w : ℚ}
    (h : w ∈ (USet.bucketRemove v p o).map (·.1)) : w ∈ o.map (·.1) := by
  induction o with
  | nil => simp [USet.bucketRemove] at h
  | cons a o ih =>
    obtain ⟨x, b⟩ := a
    simp only [USet.bucketRemove] at h
    split at h
    · split at h
      · simp only [List.map_cons, List.mem_cons]; exact Or.inr h
      · simpa using h
    · simp only [List.map_cons, List.mem_cons] at h ⊢
      rcases h with h | h
      · exact Or.inl h
      · exact Or.inr (ih h)

theorem sorted_bucketRemove (v : ℚ) (p : Pointer) (o : List (ℚ × AMap Pointer Utxo))
    (ho : SortedKeys o) : SortedKeys (USet.bucketRemove v p o) := by
  induction o with
  | nil => simp [USet.bucketRemove, SortedKeys]
  | cons a o ih =>
    obtain ⟨x, b⟩ := a
    simp only [USet.bucketRemove]
    split
    · split
      · exact ho.tail
      · exact ho
    · unfold SortedKeys
      rw [List.map_cons, List.pairwise_cons]
      refine ⟨?_, ih ho.tail⟩
      intro w hw
      have hw := mem_keys_bucketRemove hw
      obtain ⟨c, hc, rfl⟩ := List.mem_map.mp hw
      exact ho.head_lt c hc

/-! ### One token's set -/

/-- The amount under which a UTxO is filed for a token. -/
def amountOf (t : Token) (u : Utxo) : Option ℚ :=
  if t = mainToken then some u.value
  else (u.assets.find? (fun a => a.fingerprint = t)).map (·.quantity)

/-- UTxOs filed for a token. -/
def holders (t : Token) (L : List Utxo) : List Utxo := L.filter (fun u => (amountOf t u).isSome)

/-- UTxOs filed for a token under an amount. -/
def bucket (t : Token) (v : ℚ) (L : List Utxo) : List Utxo :=
  L.filter (fun u => amountOf t u = some v)

/-- A set describes the UTxOs of `L` filed for `t`. -/
structure SetOK (t : Token) (L : List Utxo) (s : USet) : Prop where
  set_eq : s.set = ptrMap (holders t L)
  balance_eq : s.balance = (L.map (fun u => (amountOf t u).getD 0)).sum
  sorted : SortedKeys s.ordered
  ordered_eq : ∀ v, AMap.get s.ordered v =
    if bucket t v L = [] then none else some (ptrMap (bucket t v L))

theorem holders_append (t : Token) (L : List Utxo) (u : Utxo) :
    holders t (L ++ [u]) = if (amountOf t u).isSome then holders t L ++ [u] else holders t L := by
  unfold holders
  rw [List.filter_append]
  by_cases h : (amountOf t u).isSome
  · simp [h]
  · simp [h]

theorem bucket_append (t : Token) (v : ℚ) (L : List Utxo) (u : Utxo) :
    bucket t v (L ++ [u]) = if amountOf t u = some v then bucket t v L ++ [u] else bucket t v L := by
  unfold bucket
  rw [List.filter_append]
  by_cases h : amountOf t u = some v
  · simp [h]
  · simp [h]

theorem mem_holders {t : Token} {L : List Utxo} {u : Utxo} :
    u ∈ holders t L ↔ u ∈ L ∧ (amountOf t u).isSome := by simp [holders]

theorem mem_bucket {t : Token} {v : ℚ} {L : List Utxo} {u : Utxo} :
    u ∈ bucket t v L ↔ u ∈ L ∧ amountOf t u = some v := by simp [bucket]

theorem SetOK.empty (t : Token) (L : List Utxo) (h : holders t L = []) : SetOK t L {} := by
  have hnone : ∀ u ∈ L, amountOf t u = none := by
    intro u hu
    by_contra hc
    have : u ∈ holders t L := mem_holders.mpr ⟨hu, by
      cases ha : amountOf t u with
      | none => exact absurd ha hc
      | some v => simp⟩
    rw [h] at this; simp at this
  constructor
  · simp [h, ptrMap]
  · show (0 : ℚ) = _
    symm
    apply List.sum_eq_zero
    intro x hx
    obtain ⟨u, hu, rfl⟩ := List.mem_map.mp hx
    simp [hnone u hu]
  · simp [SortedKeys]
  · intro v
    have : bucket t v L = [] := by
      rw [List.eq_nil_iff_forall_not_mem]
      intro u hu
      have := mem_bucket.mp hu
      rw [hnone u this.1] at this
      simp at this
    simp [this]

/-- Filing a new UTxO. -/
theorem SetOK.add {t : Token} {L : List Utxo} {s : USet} (h : SetOK t L s) {u : Utxo} {v : ℚ}
    (hv : amountOf t u = some v) (hp : ∀ w ∈ L, w.ptr ≠ u.ptr) :
    SetOK t (L ++ [u]) (s.addValue t v u) := by
  constructor
  · simp only [USet.addValue, h.set_eq]
    rw [insert_ptrMap (fun w hw => hp w (mem_holders.mp hw).1), holders_append, hv]; simp
  · simp [USet.addValue, h.balance_eq, hv]
  · exact sorted_bucketAdd _ _ _ h.sorted
  · intro w
    simp only [USet.addValue]
    rw [get_bucketAdd _ _ _ h.sorted, bucket_append, hv]
    by_cases hw : v = w
    · subst hw
      simp only [if_true]
      rw [h.ordered_eq]
      by_cases hb : bucket t v L = []
      · simp [hb, ptrMap, AMap.insert]
      · simp only [if_neg hb, Option.getD_some]
        rw [insert_ptrMap (fun w hw => hp w (mem_bucket.mp hw).1)]
        simp
    · have : ¬ (some v = some w) := by simpa using hw
      simp only [if_neg hw, if_neg this, h.ordered_eq]

/-- A UTxO that does not hold the token changes nothing. -/
theorem SetOK.skip {t : Token} {L : List Utxo} {s : USet} (h : SetOK t L s) {u : Utxo}
    (hv : amountOf t u = none) : SetOK t (L ++ [u]) s := by
  constructor
  · rw [holders_append, hv]; simpa using h.set_eq
  · simp [h.balance_eq, hv]
  · exact h.sorted
  · intro w
    rw [bucket_append, hv]; simpa using h.ordered_eq w

theorem filter_comm_ptr (q : Utxo → Bool) (L : List Utxo) (p : Pointer) :
    (L.filter (fun u => u.ptr ≠ p)).filter q = (L.filter q).filter (fun u => u.ptr ≠ p) := by
  rw [List.filter_filter, List.filter_filter]
  congr 1; funext u; exact Bool.and_comm _ _

theorem sum_remove (f : Utxo → ℚ) {L : List Utxo} (hn : (L.map (·.ptr)).Nodup) {u : Utxo}
    (hu : u ∈ L) :
    (L.map f).sum = f u + ((L.filter (fun w => w.ptr ≠ u.ptr)).map f).sum := by
  induction L with
  | nil => simp at hu
  | cons a L ih =>
    simp only [List.map_cons, List.nodup_cons] at hn
    rcases List.mem_cons.mp hu with rfl | hu'
    · rw [List.filter_cons_of_neg (by simp)]
      have : L.filter (fun w => w.ptr ≠ u.ptr) = L := by
        rw [List.filter_eq_self]
        intro w hw
        have : w.ptr ≠ u.ptr := by
          intro e; exact hn.1 (List.mem_map.mpr ⟨w, hw, e⟩)
        simpa using this
      rw [this]; simp
    · have hne : a.ptr ≠ u.ptr := by
        intro e; exact hn.1 (List.mem_map.mpr ⟨u, hu', e.symm⟩)
      rw [List.filter_cons_of_pos (by simpa using hne)]
      simp only [List.map_cons, List.sum_cons]
      rw [ih hn.2 hu', add_left_comm]

theorem filter_ptr_none {q : Utxo → Bool} {L : List Utxo} (hn : (L.map (·.ptr)).Nodup) {u : Utxo}
    (hu : u ∈ L) (hq : q u = false) :
    (L.filter q).filter (fun w => w.ptr ≠ u.ptr) = L.filter q := by
  rw [List.filter_eq_self]
  intro w hw
  have hw := List.mem_filter.mp hw
  have : w.ptr ≠ u.ptr := by
    intro e
    have := List.inj_on_of_nodup_map hn hw.1 hu e
    subst this; rw [hq] at hw; simp at hw
  simpa using this

/-- Removing a UTxO that holds the token. -/
theorem SetOK.remove {t : Token} {L : List Utxo} {s : USet} (h : SetOK t L s)
    (hn : (L.map (·.ptr)).Nodup) {u : Utxo} (hu : u ∈ L) {v : ℚ} (hv : amountOf t u = some v) :
    SetOK t (L.filter (fun w => w.ptr ≠ u.ptr))
      (({ s with set := s.set.erase u.ptr } : USet).finishRemove v u.ptr) := by
  constructor
  · simp only [USet.finishRemove, h.set_eq, erase_ptrMap]
    unfold holders; rw [filter_comm_ptr]
  · simp only [USet.finishRemove, h.balance_eq]
    rw [sum_remove (fun u => (amountOf t u).getD 0) hn hu, hv]; simp
  · exact sorted_bucketRemove _ _ _ h.sorted
  · intro w
    simp only [USet.finishRemove]
    rw [get_bucketRemove _ _ _ h.sorted]
    unfold bucket
    rw [filter_comm_ptr]
    by_cases hw : v = w
    · subst hw
      simp only [if_true]
      rw [h.ordered_eq]
      have hb : bucket t v L ≠ [] := by
        intro e
        have : u ∈ bucket t v L := mem_bucket.mpr ⟨hu, hv⟩
        rw [e] at this; simp at this
      simp only [if_neg hb, Option.bind_some, erase_ptrMap, ptrMap_eq_nil]
      rfl
    · rw [if_neg hw, h.ordered_eq]
      have := filter_ptr_none (q := fun x => decide (amountOf t x = some w)) hn hu
        (by simp [hv, hw])
      rw [this]; rfl

/-- Removing a UTxO that does not hold the token. -/
theorem SetOK.removeSkip {t : Token} {L : List Utxo} {s : USet} (h : SetOK t L s)
    (hn : (L.map (·.ptr)).Nodup) {u : Utxo} (hu : u ∈ L) (hv : amountOf t u = none) :
    SetOK t (L.filter (fun w => w.ptr ≠ u.ptr)) s := by
  constructor
  · unfold holders
    rw [filter_comm_ptr, filter_ptr_none hn hu (by simp [hv])]; exact h.set_eq
  · rw [h.balance_eq, sum_remove (fun u => (amountOf t u).getD 0) hn hu, hv]; simp
  · exact h.sorted
  · intro w
    unfold bucket
    rw [filter_comm_ptr, filter_ptr_none hn hu (by simp [hv])]
    exact h.ordered_eq w

/-! ### The store -/

/-- General invariant: contents, and no panic on removal. -/
structure Contents (L : List Utxo) (st : UStore) : Prop where
  nodup : (L.map (·.ptr)).Nodup
  set_eq : st.utxos.set = ptrMap L
  tokens : ∀ t s, st.byPolicy.get t = some s → s.tokenId = t ∧
    ∀ p u, s.set.get p = some u → t = mainToken ∨ ∃ a ∈ u.assets, a.fingerprint = t

theorem Contents.new : Contents [] UStore.new :=
  ⟨by simp, rfl, by intro t s h; simp [UStore.new] at h⟩

theorem insertAsset_fold_utxos (u : Utxo) (as : List Asset) (st : UStore) :
    (as.foldl (UStore.insertAsset u) st).utxos = st.utxos := by
  induction as generalizing st with
  | nil => rfl
  | cons a as ih => rw [List.foldl_cons, ih]; rfl

/-- Token part of `Contents`. -/
def TokensOK (m : AMap Token USet) : Prop :=
  ∀ t s, m.get t = some s → s.tokenId = t ∧
    ∀ p u, s.set.get p = some u → t = mainToken ∨ ∃ a ∈ u.assets, a.fingerprint = t

theorem TokensOK.add {m : AMap Token USet} (h : TokensOK m) (t : Token) (v : ℚ) (u : Utxo)
    (ht : t = mainToken ∨ ∃ a ∈ u.assets, a.fingerprint = t) :
    TokensOK (m.insert t (((m.get t).getD {}).addValue t v u)) := by
  intro t' s hs
  rw [get_insert] at hs
  split at hs
  · rename_i he
    subst he
    cases hs
    refine ⟨rfl, ?_⟩
    intro p w hw
    simp only [USet.addValue, get_insert] at hw
    split at hw
    · cases hw; exact ht
    · cases hm : m.get t with
      | none => simp [hm] at hw
      | some s0 => simp only [hm, Option.getD_some] at hw; exact (h t s0 hm).2 p w hw
  · exact h t' s hs

theorem insertAsset_fold_tokens (u : Utxo) (as : List Asset) (st : UStore)
    (hsub : ∀ a ∈ as, a ∈ u.assets) (h : TokensOK st.byPolicy) :
    TokensOK (as.foldl (UStore.insertAsset u) st).byPolicy := by
  induction as generalizing st with
  | nil => exact h
  | cons a as ih =>
    rw [List.foldl_cons]
    apply ih _ (fun x hx => hsub x (by simp [hx]))
    exact h.add a.fingerprint a.quantity u (Or.inr ⟨a, hsub a (by simp), rfl⟩)

theorem Contents.insert {L : List Utxo} {st : UStore} (h : Contents L st) (u : Utxo) :
    (if u.ptr ∈ L.map (·.ptr) then st.insert u = .error .alreadyInserted
     else ∃ st', st.insert u = .ok st' ∧ Contents (L ++ [u]) st') := by
  have hc : st.utxos.set.contains u.ptr = true ↔ u.ptr ∈ L.map (·.ptr) := by
    unfold AMap.contains
    rw [h.set_eq, ← keys_ptrMap]
    rw [← not_iff_not, ← get_eq_none_iff]
    simp
  split
  · rename_i hm
    rw [UStore.insert_eq]
    rw [if_pos (hc.mpr hm)]
  · rename_i hm
    have hnc : ¬ st.utxos.set.contains u.ptr = true := fun e => hm (hc.mp e)
    have hne : ∀ w ∈ L, w.ptr ≠ u.ptr := fun w hw e => hm (List.mem_map.mpr ⟨w, hw, e⟩)
    rw [UStore.insert_eq]
    rw [if_neg hnc]
    refine ⟨_, rfl, ?_⟩
    constructor
    · rw [List.map_append, List.nodup_append]
      refine ⟨h.nodup, by simp, ?_⟩
      intro a ha b hb e
      simp at hb; subst hb; subst e; exact hm ha
    · rw [insertAsset_fold_utxos]
      simp only [USet.addValue, h.set_eq]
      exact insert_ptrMap hne
    · exact insertAsset_fold_tokens u u.assets _ (fun _ h => h)
        (TokensOK.add h.tokens mainToken u.value u (Or.inl rfl))

theorem removeFromAsset_ok {t : Token} {s : USet} (ht : s.tokenId = t)
    (h : ∀ p u, s.set.get p = some u → t = mainToken ∨ ∃ a ∈ u.assets, a.fingerprint = t)
    (p : Pointer) :
    ∃ s', s.removeFromAsset p = some s' ∧ s'.tokenId = t ∧ s'.set = s.set.erase p := by
  unfold USet.removeFromAsset
  cases hg : s.set.get p with
  | none =>
    refine ⟨s, rfl, ht, ?_⟩
    rw [erase_absent ((get_eq_none_iff _ _).mp hg)]
  | some u =>
    simp only
    split
    · exact ⟨_, rfl, ht, rfl⟩
    · rename_i hne
      have := (h p u hg).resolve_left (by rw [← ht]; exact hne)
      obtain ⟨a, ha, hf⟩ := this
      cases hfind : u.assets.find? (fun a => a.fingerprint = s.tokenId) with
      | none =>
        rw [List.find?_eq_none] at hfind
        have := hfind a ha
        rw [ht] at this; simp [hf] at this
      | some b => exact ⟨_, rfl, ht, rfl⟩

theorem removeTokens_ok (p : Pointer) (ts : List Token) (m : AMap Token USet) (h : TokensOK m) :
    ∃ m', UStore.removeTokens p m ts = some m' ∧ TokensOK m' := by
  induction ts generalizing m with
  | nil => exact ⟨m, rfl, h⟩
  | cons t ts ih =>
    unfold UStore.removeTokens UStore.removeToken
    cases hg : m.get t with
    | none => exact ih m h
    | some s =>
      obtain ⟨hid, hall⟩ := h t s hg
      obtain ⟨s', hs', hid', hset⟩ := removeFromAsset_ok hid hall p
      simp only [hs']
      by_cases he : s'.set = []
      · simp only [he, if_true]
        apply ih
        intro t' s'' hs''
        rw [get_erase] at hs''
        split at hs''
        · cases hs''
        · exact h t' s'' hs''
      · simp only [he, if_false]
        apply ih
        intro t' s'' hs''
        rw [get_insert] at hs''
        split at hs''
        · rename_i e
          subst e
          cases hs''
          refine ⟨hid', ?_⟩
          intro q w hw
          rw [hset, get_erase] at hw
          split at hw
          · cases hw
          · exact hall q w hw
        · exact h t' s'' hs''

theorem Contents.remove {L : List Utxo} {st : UStore} (h : Contents L st) (p : Pointer) :
    (if p ∈ L.map (·.ptr) then ∃ st', st.remove p = .ok st' ∧
        Contents (L.filter (fun w => w.ptr ≠ p)) st'
     else st.remove p = .error .notFound) := by
  have hg : st.utxos.set.get p = none ↔ p ∉ L.map (·.ptr) := by
    rw [get_eq_none_iff, h.set_eq, keys_ptrMap]
  split
  · rename_i hm
    cases hget : st.utxos.set.get p with
    | none => exact absurd hm (hg.mp hget)
    | some u =>
      rw [UStore.remove_eq]; unfold USet.removeFromMain
      simp only [hget]
      obtain ⟨m', hm', hok⟩ := removeTokens_ok p (u.assets.map (·.fingerprint) ++ [mainToken])
        st.byPolicy h.tokens
      simp only [hm']
      refine ⟨_, rfl, ?_, ?_, hok⟩
      · exact h.nodup.sublist (List.filter_sublist.map _)
      · simp only [USet.finishRemove, h.set_eq, erase_ptrMap]
  · rename_i hm
    rw [UStore.remove_eq]; unfold USet.removeFromMain
    simp only [hg.mpr hm]

/-! ### Distinct fingerprints -/

/-- The UTxO lists each asset once and none of them is the main token. -/
def DistinctAssets (u : Utxo) : Prop :=
  (u.assets.map (·.fingerprint)).Nodup ∧ mainToken ∉ u.assets.map (·.fingerprint)

/-- Full invariant for UTxOs with distinct assets. -/
structure StoreOK (L : List Utxo) (st : UStore) : Prop where
  contents : Contents L st
  distinct : ∀ u ∈ L, DistinctAssets u
  main : SetOK mainToken L st.utxos
  token : ∀ t, (holders t L = [] → st.byPolicy.get t = none) ∧
    (holders t L ≠ [] → ∃ s, st.byPolicy.get t = some s ∧ SetOK t L s)

theorem StoreOK.new : StoreOK [] UStore.new := by
  refine ⟨Contents.new, by simp, SetOK.empty _ _ rfl, ?_⟩
  intro t
  simp [holders, UStore.new]

theorem find_of_nodup {as : List Asset} (hn : (as.map (·.fingerprint)).Nodup) {a : Asset} (ha : a ∈ as) :
    as.find? (fun b => b.fingerprint = a.fingerprint) = some a := by
  induction as with
  | nil => simp at ha
  | cons b as ih =>
    simp only [List.map_cons, List.nodup_cons] at hn
    rcases List.mem_cons.mp ha with rfl | ha
    · simp
    · have : b.fingerprint ≠ a.fingerprint := by
        intro e; exact hn.1 (List.mem_map.mpr ⟨a, ha, e.symm⟩)
      rw [List.find?_cons_of_neg (by simpa using this)]
      exact ih hn.2 ha

theorem amountOf_asset {u : Utxo} (hd : DistinctAssets u) {a : Asset} (ha : a ∈ u.assets) :
    amountOf a.fingerprint u = some a.quantity := by
  have hne : a.fingerprint ≠ mainToken := by
    intro e; exact hd.2 (List.mem_map.mpr ⟨a, ha, e⟩)
  unfold amountOf
  rw [if_neg hne, find_of_nodup hd.1 ha]; rfl

theorem amountOf_none {u : Utxo} {t : Token} (hne : t ≠ mainToken)
    (h : t ∉ u.assets.map (·.fingerprint)) : amountOf t u = none := by
  unfold amountOf
  rw [if_neg hne]
  simp only [Option.map_eq_none_iff, List.find?_eq_none]
  intro a ha
  have : a.fingerprint ≠ t := by intro e; exact h (List.mem_map.mpr ⟨a, ha, e⟩)
  simpa using this

theorem insertAsset_fold_get (u : Utxo) (as : List Asset) (st : UStore)
    (hn : (as.map (·.fingerprint)).Nodup) (t : Token) :
    (as.foldl (UStore.insertAsset u) st).byPolicy.get t =
      match as.find? (fun a => a.fingerprint = t) with
      | none => st.byPolicy.get t
      | some a => some (((st.byPolicy.get t).getD {}).addValue t a.quantity u) := by
  induction as generalizing st with
  | nil => rfl
  | cons a as ih =>
    simp only [List.map_cons, List.nodup_cons] at hn
    rw [List.foldl_cons, ih _ hn.2]
    by_cases h : a.fingerprint = t
    · subst h
      have hnone : as.find? (fun b => b.fingerprint = a.fingerprint) = none := by
        rw [List.find?_eq_none]
        intro b hb
        have : b.fingerprint ≠ a.fingerprint := by
          intro e; exact hn.1 (List.mem_map.mpr ⟨b, hb, e⟩)
        simpa using this
      rw [hnone, List.find?_cons_of_pos (by simp)]
      simp [UStore.insertAsset, get_insert]
    · rw [List.find?_cons_of_neg (by simpa using h)]
      have : (UStore.insertAsset u st a).byPolicy.get t = st.byPolicy.get t := by
        simp [UStore.insertAsset, get_insert, h]
      rw [this]

theorem holders_append_ne_nil {t : Token} {L : List Utxo} {u : Utxo} {v : ℚ}
    (hv : amountOf t u = some v) : holders t (L ++ [u]) ≠ [] := by
  rw [holders_append, hv]; simp

theorem StoreOK.insert {L : List Utxo} {st st' : UStore} (h : StoreOK L st) {u : Utxo}
    (hd : DistinctAssets u) (hi : st.insert u = .ok st') : StoreOK (L ++ [u]) st' := by
  have hc := h.contents.insert u
  by_cases hm : u.ptr ∈ L.map (·.ptr)
  · rw [if_pos hm] at hc; rw [hc] at hi; cases hi
  rw [if_neg hm] at hc
  obtain ⟨st'', h1, h2⟩ := hc
  have : st'' = st' := by rw [h1] at hi; cases hi; rfl
  subst this
  have hne : ∀ w ∈ L, w.ptr ≠ u.ptr := fun w hw e => hm (List.mem_map.mpr ⟨w, hw, e⟩)
  have hcont : ¬ st.utxos.set.contains u.ptr = true := by
    intro e; rw [UStore.insert_eq] at h1; rw [if_pos e] at h1; cases h1
  rw [UStore.insert_eq] at h1
  rw [if_neg hcont] at h1
  cases h1
  have hmain : amountOf mainToken u = some u.value := by simp [amountOf]
  refine ⟨h2, ?_, ?_, ?_⟩
  · intro w hw
    rcases List.mem_append.mp hw with hw | hw
    · exact h.distinct w hw
    · simp at hw; subst hw; exact hd
  · rw [insertAsset_fold_utxos]
    exact h.main.add hmain hne
  · intro t
    rw [insertAsset_fold_get _ _ _ hd.1]
    have hset : SetOK t L ((st.byPolicy.get t).getD {}) := by
      by_cases he : holders t L = []
      · rw [(h.token t).1 he]; exact SetOK.empty t L he
      · obtain ⟨s, hs, hok⟩ := (h.token t).2 he
        rw [hs]; exact hok
    by_cases ht : t = mainToken
    · subst ht
      have hfind : u.assets.find? (fun a => a.fingerprint = mainToken) = none := by
        rw [List.find?_eq_none]
        intro a ha
        have : a.fingerprint ≠ mainToken := by
          intro e; exact hd.2 (List.mem_map.mpr ⟨a, ha, e⟩)
        simpa using this
      rw [hfind]
      simp only [get_insert, if_true]
      exact ⟨fun e => absurd e (holders_append_ne_nil hmain), fun _ => ⟨_, rfl, hset.add hmain hne⟩⟩
    · cases hfind : u.assets.find? (fun a => a.fingerprint = t) with
      | none =>
        have hnone : amountOf t u = none := by simp [amountOf, ht, hfind]
        have ht' : ¬ mainToken = t := fun e => ht e.symm
        simp only [get_insert, if_neg ht']
        rw [holders_append, hnone]
        simp only [Option.isSome_none, Bool.false_eq_true, if_false]
        refine ⟨(h.token t).1, fun he => ?_⟩
        obtain ⟨s, hs, hok⟩ := (h.token t).2 he
        exact ⟨s, hs, hok.skip hnone⟩
      | some a =>
        have hv : amountOf t u = some a.quantity := by simp [amountOf, ht, hfind]
        have ht' : ¬ mainToken = t := fun e => ht e.symm
        simp only [get_insert, if_neg ht']
        exact ⟨fun e => absurd e (holders_append_ne_nil hv), fun _ => ⟨_, rfl, hset.add hv hne⟩⟩

theorem removeTokens_get (p : Pointer) (ts : List Token) (hn : ts.Nodup) (m m' : AMap Token USet)
    (h : UStore.removeTokens p m ts = some m') (t : Token) :
    m'.get t =
      if t ∈ ts then
        (m.get t).bind (fun s => (s.removeFromAsset p).bind (fun s' =>
          if s'.set = [] then none else some s'))
      else m.get t := by
  induction ts generalizing m with
  | nil => simp [UStore.removeTokens] at h; subst h; simp
  | cons a ts ih =>
    simp only [List.nodup_cons] at hn
    unfold UStore.removeTokens at h
    have key : ∀ m1, UStore.removeToken p m a = some m1 → ∀ t,
        m1.get t = if a = t then
          (m.get t).bind (fun s => (s.removeFromAsset p).bind (fun s' =>
            if s'.set = [] then none else some s'))
          else m.get t := by
      intro m1 h1 t
      unfold UStore.removeToken at h1
      cases hg : m.get a with
      | none =>
        simp [hg] at h1; subst h1
        by_cases he : a = t
        · subst he; simp [hg]
        · simp [he]
      | some s =>
        simp only [hg] at h1
        cases hr : s.removeFromAsset p with
        | none => simp [hr] at h1
        | some s' =>
          simp only [hr] at h1
          by_cases hs : s'.set = []
          · simp only [hs, if_true, Option.some.injEq] at h1
            subst h1
            rw [get_erase]
            by_cases he : a = t
            · subst he; simp [hg, hr, hs]
            · simp [he]
          · simp only [hs, if_false, Option.some.injEq] at h1
            subst h1
            rw [get_insert]
            by_cases he : a = t
            · subst he; simp [hg, hr, hs]
            · simp [he]
    cases h1 : UStore.removeToken p m a with
    | none => simp [h1] at h
    | some m1 =>
      simp only [h1] at h
      rw [ih hn.2 m1 h, key m1 h1]
      by_cases he : a = t
      · subst he; simp [hn.1]
      · have : ¬ t = a := fun e => he e.symm
        simp [he, this]

theorem StoreOK.remove {L : List Utxo} {st st' : UStore} (h : StoreOK L st) {p : Pointer}
    (hr : st.remove p = .ok st') : StoreOK (L.filter (fun w => w.ptr ≠ p)) st' := by
  have hc := h.contents.remove p
  by_cases hm : p ∈ L.map (·.ptr)
  swap
  · rw [if_neg hm] at hc; rw [hc] at hr; cases hr
  rw [if_pos hm] at hc
  obtain ⟨st'', h1, h2⟩ := hc
  have : st'' = st' := by rw [h1] at hr; cases hr; rfl
  subst this
  rw [UStore.remove_eq] at h1
  cases hget : st.utxos.set.get p with
  | none => simp [USet.removeFromMain, hget] at h1
  | some u =>
    simp only [USet.removeFromMain, hget] at h1
    have hget' := hget
    rw [h.contents.set_eq, get_ptrMap h.contents.nodup] at hget'
    obtain ⟨huL, hup⟩ := hget'
    subst hup
    have hn := h.contents.nodup
    have hd := h.distinct u huL
    have hts : (u.assets.map (·.fingerprint) ++ [mainToken]).Nodup := by
      rw [List.nodup_append]
      refine ⟨hd.1, by simp, ?_⟩
      intro a ha b hb e
      simp at hb; subst hb; subst e; exact hd.2 ha
    cases hm' : UStore.removeTokens u.ptr st.byPolicy (u.assets.map (·.fingerprint) ++ [mainToken]) with
    | none => simp [hm'] at h1
    | some m' =>
      simp only [hm'] at h1
      cases h1
      have hmain : amountOf mainToken u = some u.value := by simp [amountOf]
      refine ⟨h2, fun w hw => h.distinct w (List.mem_filter.mp hw).1, h.main.remove hn huL hmain, ?_⟩
      intro t
      simp only
      rw [removeTokens_get _ _ hts _ _ hm' t]
      have hsplit : holders t (L.filter (fun w => w.ptr ≠ u.ptr)) =
          (holders t L).filter (fun w => w.ptr ≠ u.ptr) := by
        unfold holders; rw [filter_comm_ptr]
      cases hv : amountOf t u with
      | none =>
        have htn : t ∉ u.assets.map (·.fingerprint) ++ [mainToken] := by
          intro hc
          rcases List.mem_append.mp hc with hc | hc
          · obtain ⟨a, ha, rfl⟩ := List.mem_map.mp hc
            rw [amountOf_asset hd ha] at hv; cases hv
          · simp at hc; subst hc; rw [hmain] at hv; cases hv
        rw [if_neg htn, hsplit]
        have heq : (holders t L).filter (fun w => w.ptr ≠ u.ptr) = holders t L :=
          filter_ptr_none hn huL (by simp [hv])
        rw [heq]
        refine ⟨(h.token t).1, fun he => ?_⟩
        obtain ⟨s, hs, hok⟩ := (h.token t).2 he
        exact ⟨s, hs, hok.removeSkip hn huL hv⟩
      | some v =>
        have htm : t ∈ u.assets.map (·.fingerprint) ++ [mainToken] := by
          by_contra hc
          simp only [List.mem_append, List.mem_singleton, not_or] at hc
          rw [amountOf_none hc.2 hc.1] at hv; cases hv
        have hin : u ∈ holders t L := mem_holders.mpr ⟨huL, by simp [hv]⟩
        have hne : holders t L ≠ [] := by intro e; rw [e] at hin; simp at hin
        obtain ⟨s, hs, hok⟩ := (h.token t).2 hne
        have hid := (h.contents.tokens t s hs).1
        have hrem : s.removeFromAsset u.ptr =
            some (({ s with set := s.set.erase u.ptr } : USet).finishRemove v u.ptr) := by
          unfold USet.removeFromAsset
          have hsg : s.set.get u.ptr = some u := by
            rw [hok.set_eq, get_ptrMap]
            · exact ⟨hin, rfl⟩
            · exact hn.sublist (List.filter_sublist.map _)
          simp only [hsg, hid]
          unfold amountOf at hv
          by_cases ht : t = mainToken
          · simp only [ht, if_true, Option.some.injEq] at hv ⊢; rw [hv]
          · simp only [ht, if_false, Option.map_eq_some_iff] at hv ⊢
            obtain ⟨a, ha, rfl⟩ := hv
            simp only [ha]
        rw [if_pos htm, hs]
        simp only [Option.bind_some, hrem]
        have hset := (hok.remove hn huL hv).set_eq
        have hempty : ((({ s with set := s.set.erase u.ptr } : USet).finishRemove v u.ptr).set = []) ↔
            holders t (L.filter (fun w => w.ptr ≠ u.ptr)) = [] := by
          rw [hset, ptrMap_eq_nil]
        by_cases he : holders t (L.filter (fun w => w.ptr ≠ u.ptr)) = []
        · rw [if_pos (hempty.mpr he)]
          exact ⟨fun _ => rfl, fun e => absurd he e⟩
        · rw [if_neg (fun e => he (hempty.mp e))]
          exact ⟨fun e => absurd e he, fun _ => ⟨_, rfl, hok.remove hn huL hv⟩⟩

/-! ### The ordered listing -/

theorem SetOK.mem_ordered {t : Token} {L : List Utxo} {s : USet} (h : SetOK t L s)
    {b : ℚ × AMap Pointer Utxo} (hb : b ∈ s.ordered) :
    b.2.map (·.2) = bucket t b.1 L := by
  have hn : (AMap.keys s.ordered).Nodup := h.sorted.imp (fun hlt => ne_of_lt hlt)
  have hg := AMap.get_of_mem hn (k := b.1) (v := b.2) hb
  rw [h.ordered_eq] at hg
  split at hg
  · cases hg
  · rw [← Option.some.inj hg]; simp [ptrMap, Function.comp_def]

theorem SetOK.ordered_perm {t : Token} {L : List Utxo} {s : USet} (h : SetOK t L s)
    (hn : (L.map (·.ptr)).Nodup) : s.orderedUtxos.Perm (holders t L) := by
  have hL : L.Nodup := List.Nodup.of_map _ hn
  rw [List.perm_ext_iff_of_nodup]
  · intro u
    unfold USet.orderedUtxos
    rw [List.mem_flatMap, mem_holders]
    constructor
    · rintro ⟨b, hb, hu⟩
      rw [h.mem_ordered hb] at hu
      have := mem_bucket.mp hu
      exact ⟨this.1, by simp [this.2]⟩
    · rintro ⟨hu, hs⟩
      obtain ⟨v, hv⟩ := Option.isSome_iff_exists.mp hs
      have hin : u ∈ bucket t v L := mem_bucket.mpr ⟨hu, hv⟩
      have hg := h.ordered_eq v
      have hne : bucket t v L ≠ [] := by intro e; rw [e] at hin; simp at hin
      rw [if_neg hne] at hg
      refine ⟨_, AMap.mem_of_get hg, ?_⟩
      simp only [ptrMap, List.map_map, Function.comp_def, List.map_id']
      exact hin
  · unfold USet.orderedUtxos
    rw [List.nodup_flatMap]
    constructor
    · intro b hb
      rw [h.mem_ordered hb]
      exact hL.filter _
    · have hp : s.ordered.Pairwise (fun a b => a.1 < b.1) := List.pairwise_map.mp h.sorted
      apply hp.imp_of_mem
      intro a b ha hb hlt
      simp only [Function.onFun]
      rw [h.mem_ordered ha, h.mem_ordered hb]
      intro u hua hub
      have h1 := (mem_bucket.mp hua).2
      have h2 := (mem_bucket.mp hub).2
      rw [h1] at h2
      exact absurd (Option.some.inj h2) (ne_of_lt hlt)
  · exact hL.filter _

theorem SetOK.ordered_sorted {t : Token} {L : List Utxo} {s : USet} (h : SetOK t L s) :
    s.orderedUtxos.Pairwise (fun a b => (amountOf t a).getD 0 ≤ (amountOf t b).getD 0) := by
  unfold USet.orderedUtxos
  rw [List.pairwise_flatMap]
  constructor
  · intro b hb
    rw [h.mem_ordered hb]
    rw [List.pairwise_iff_forall_sublist]
    intro x y hxy
    have hx := (mem_bucket.mp (hxy.subset (by simp : x ∈ [x, y]))).2
    have hy := (mem_bucket.mp (hxy.subset (by simp : y ∈ [x, y]))).2
    rw [hx, hy]
  · have hp : s.ordered.Pairwise (fun a b => a.1 < b.1) := List.pairwise_map.mp h.sorted
    apply hp.imp_of_mem
    intro a b ha hb hlt x hx y hy
    rw [h.mem_ordered ha] at hx
    rw [h.mem_ordered hb] at hy
    rw [(mem_bucket.mp hx).2, (mem_bucket.mp hy).2]
    exact le_of_lt hlt

theorem SetOK.ordered_rev_perm {t : Token} {L : List Utxo} {s : USet} (h : SetOK t L s)
    (hn : (L.map (·.ptr)).Nodup) : s.orderedUtxosRev.Perm (holders t L) := by
  refine List.Perm.trans ?_ (h.ordered_perm hn)
  unfold USet.orderedUtxosRev USet.orderedUtxos
  exact (List.reverse_perm _).flatMap_right _

theorem SetOK.ordered_rev_sorted {t : Token} {L : List Utxo} {s : USet} (h : SetOK t L s) :
    s.orderedUtxosRev.Pairwise (fun a b => (amountOf t b).getD 0 ≤ (amountOf t a).getD 0) := by
  unfold USet.orderedUtxosRev
  rw [List.pairwise_flatMap]
  constructor
  · intro b hb
    rw [h.mem_ordered (List.mem_reverse.mp hb)]
    rw [List.pairwise_iff_forall_sublist]
    intro x y hxy
    have hx := (mem_bucket.mp (hxy.subset (by simp : x ∈ [x, y]))).2
    have hy := (mem_bucket.mp (hxy.subset (by simp : y ∈ [x, y]))).2
    rw [hx, hy]
  · have hp : s.ordered.Pairwise (fun a b => a.1 < b.1) := List.pairwise_map.mp h.sorted
    rw [List.pairwise_reverse]
    apply hp.imp_of_mem
    intro a b ha hb hlt x hx y hy
    rw [h.mem_ordered hb] at hx
    rw [h.mem_ordered ha] at hy
    rw [(mem_bucket.mp hx).2, (mem_bucket.mp hy).2]
    exact le_of_lt hlt

/-- A failed insertion leaves the state as it was. -/
theorem insertM_error {st : UStore} {u : Utxo} {e : StoreErr} (h : (st.insertM u).1 = .error e) :
    (st.insertM u).2 = st := by
  unfold UStore.insertM at *
  split at h <;> simp_all

/-- A failed removal leaves the state as it was. -/
theorem removeM_error {st : UStore} {p : Pointer} {e : StoreErr} (h : (st.removeM p).1 = .error e) :
    (st.removeM p).2 = st := by
  unfold UStore.removeM at *
  unfold USet.removeFromMain at *
  cases hg : st.utxos.set.get p with
  | none => simp
  | some u =>
    simp only [hg] at h ⊢
    cases hm : UStore.removeTokens p st.byPolicy (u.assets.map (·.fingerprint) ++ [mainToken]) with
    | none => simp
    | some m => simp [hm] at h

theorem insertM_of_insert {st st' : UStore} {u : Utxo} (h : st.insert u = .ok st') :
    st.insertM u = (.ok (), st') := by
  unfold UStore.insert at h
  rcases hi : st.insertM u with ⟨_ | _, s⟩ <;> simp_all

theorem removeM_of_remove {st st' : UStore} {p : Pointer} (h : st.remove p = .ok st') :
    st.removeM p = (.ok (), st') := by
  unfold UStore.remove at h
  rcases hi : st.removeM p with ⟨_ | _, s⟩ <;> simp_all

theorem insertM_of_error {st : UStore} {u : Utxo} {e : StoreErr} (h : st.insert u = .error e) :
    st.insertM u = (.error e, st) := by
  have h0 : (st.insertM u).1 = .error e := by
    unfold UStore.insert at h
    rcases hi : st.insertM u with ⟨_ | _, s⟩ <;> simp_all
  exact Prod.ext h0 (insertM_error h0)

theorem removeM_of_error {st : UStore} {p : Pointer} {e : StoreErr} (h : st.remove p = .error e) :
    st.removeM p = (.error e, st) := by
  have h0 : (st.removeM p).1 = .error e := by
    unfold UStore.remove at h
    rcases hi : st.removeM p with ⟨_ | _, s⟩ <;> simp_all
  exact Prod.ext h0 (removeM_error h0)

end Verif.Core
