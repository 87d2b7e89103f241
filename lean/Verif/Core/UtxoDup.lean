import Verif.Core.UtxoLemmas
import Mathlib.Tactic.Ring

/-!
# The UTxO store when a UTxO names an asset several times

`insert` files such a UTxO once for every mention, `remove` takes away the first filing only.
-/

namespace Verif.Core

open AMap

/-- The amounts a UTxO is filed under for a token, in the order of filing. -/
def amounts (t : Token) (u : Utxo) : List ℚ :=
  (if t = mainToken then [u.value] else []) ++
    (u.assets.filter (fun a => a.fingerprint = t)).map (·.quantity)

theorem amountOf_eq_head (t : Token) (u : Utxo) : amountOf t u = (amounts t u).head? := by
  unfold amountOf amounts
  by_cases h : t = mainToken
  · simp [h]
  · simp [h, List.head?_map, List.head?_filter]

theorem amounts_eq_nil {t : Token} {u : Utxo} : amounts t u = [] ↔ amountOf t u = none := by
  rw [amountOf_eq_head, List.head?_eq_none_iff]

/-- The filings of the ordered index: amount and pointer to UTxO. -/
abbrev Filing := ℚ → Pointer → Option Utxo

/-- One more filing. -/
def Filing.add (F : Filing) (u : Utxo) (v : ℚ) : Filing :=
  fun w p => if p = u.ptr ∧ w = v then some u else F w p

/-- One filing less. -/
def Filing.remove (F : Filing) (p : Pointer) (v : ℚ) : Filing :=
  fun w q => if q = p ∧ w = v then none else F w q

theorem Filing.foldl_add (F : Filing) (u : Utxo) (vs : List ℚ) :
    vs.foldl (fun F v => Filing.add F u v) F =
      fun w p => if p = u.ptr ∧ w ∈ vs then some u else F w p := by
  induction vs generalizing F with
  | nil => simp
  | cons v vs ih =>
    rw [List.foldl_cons, ih]
    funext w p
    simp only [Filing.add, List.mem_cons]
    by_cases h1 : p = u.ptr <;> by_cases h2 : w = v <;> by_cases h3 : w ∈ vs <;> simp [h1, h2, h3]

/-- A set shows the UTxOs `H`, the balance `bal` and the filings `F`. -/
structure SetG (H : List Utxo) (bal : ℚ) (F : Filing) (s : USet) : Prop where
  set_eq : s.set = ptrMap H
  balance_eq : s.balance = bal
  sorted : SortedKeys s.ordered
  ptr : ∀ v p u, F v p = some u → u.ptr = p
  absent : ∀ v, AMap.get s.ordered v = none → ∀ p, F v p = none
  present : ∀ v b, AMap.get s.ordered v = some b → b ≠ [] ∧ b.keys.Nodup ∧ ∀ p, b.get p = F v p

theorem SetG.empty : SetG [] 0 (fun _ _ => none) {} := by
  refine ⟨rfl, rfl, by simp [SortedKeys], by simp, by simp, ?_⟩
  intro v b h
  simp at h

theorem insert_same {K V : Type} [DecidableEq K] {m : AMap K V} {k : K} {v : V}
    (h : m.get k = some v) : m.insert k v = m := by
  induction m with
  | nil => simp at h
  | cons a m ih =>
    obtain ⟨k', v'⟩ := a
    rw [get_cons] at h
    unfold AMap.insert
    by_cases hk : k' = k
    · subst hk
      simp only [if_true, Option.some.injEq] at h
      simp [h]
    · simp only [hk, if_false] at h ⊢
      rw [ih h]

theorem insert_ne_nil {K V : Type} [DecidableEq K] (m : AMap K V) (k : K) (v : V) :
    m.insert k v ≠ [] := by
  intro h
  have := get_insert m k k v
  rw [h] at this
  simp at this

/-- Filing an amount. -/
theorem SetG.file {H H' : List Utxo} {bal : ℚ} {F : Filing} {s : USet} (h : SetG H bal F s)
    (t : Token) (v : ℚ) (u : Utxo) (hset : (ptrMap H).insert u.ptr u = ptrMap H') :
    SetG H' (bal + v) (F.add u v) (s.addValue t v u) := by
  refine ⟨?_, ?_, sorted_bucketAdd _ _ _ h.sorted, ?_, ?_, ?_⟩
  · simp only [USet.addValue, h.set_eq, hset]
  · simp only [USet.addValue, h.balance_eq]
  · intro w p x hx
    unfold Filing.add at hx
    split at hx
    · rename_i hc
      cases hx; exact hc.1.symm
    · exact h.ptr _ _ _ hx
  · intro w hw p
    simp only [USet.addValue, get_bucketAdd _ _ _ h.sorted] at hw
    split at hw
    · cases hw
    · rename_i hne
      unfold Filing.add
      rw [if_neg (fun e => hne e.2.symm)]
      exact h.absent w hw p
  · intro w b hw
    simp only [USet.addValue, get_bucketAdd _ _ _ h.sorted] at hw
    split at hw
    · rename_i he
      subst he
      cases hw
      refine ⟨insert_ne_nil _ _ _, ?_, ?_⟩
      · apply nodup_insert
        cases hg : AMap.get s.ordered v with
        | none => simp
        | some b => exact (h.present v b hg).2.1
      · intro p
        rw [get_insert]
        unfold Filing.add
        by_cases hp : u.ptr = p
        · simp [hp]
        · have hp' : ¬ p = u.ptr := fun e => hp e.symm
          simp only [hp, hp', if_false, false_and]
          cases hg : AMap.get s.ordered v with
          | none => simp [h.absent v hg p]
          | some b => exact (h.present v b hg).2.2 p
    · rename_i hne
      obtain ⟨h1, h2, h3⟩ := h.present w b hw
      refine ⟨h1, h2, ?_⟩
      intro p
      unfold Filing.add
      rw [if_neg (fun e => hne e.2.symm)]
      exact h3 p

theorem insert_ptrMap_same {H : List Utxo} (hn : (H.map (·.ptr)).Nodup) {u : Utxo} (hu : u ∈ H) :
    (ptrMap H).insert u.ptr u = ptrMap H :=
  insert_same ((get_ptrMap hn).mpr ⟨hu, rfl⟩)

/-- Filing further amounts of a UTxO that is in the set. -/
theorem SetG.fileMore {H : List Utxo} {u : Utxo} (hn : (H.map (·.ptr)).Nodup) (hu : u ∈ H)
    (t : Token) (vs : List ℚ) {bal : ℚ} {F : Filing} {s : USet} (h : SetG H bal F s) :
    SetG H (bal + vs.sum) (vs.foldl (fun F v => Filing.add F u v) F)
      (vs.foldl (fun s v => s.addValue t v u) s) := by
  induction vs generalizing bal F s with
  | nil => simpa using h
  | cons v vs ih =>
    have := ih (h.file t v u (insert_ptrMap_same hn hu))
    rw [List.foldl_cons, List.foldl_cons, List.sum_cons, ← add_assoc]
    exact this

/-- Filing all amounts of a new UTxO. -/
theorem SetG.fileNew {H : List Utxo} {u : Utxo} (hn : (H.map (·.ptr)).Nodup)
    (hu : ∀ w ∈ H, w.ptr ≠ u.ptr) (t : Token) {vs : List ℚ} (hvs : vs ≠ []) {bal : ℚ} {F : Filing}
    {s : USet} (h : SetG H bal F s) :
    SetG (H ++ [u]) (bal + vs.sum) (vs.foldl (fun F v => Filing.add F u v) F)
      (vs.foldl (fun s v => s.addValue t v u) s) := by
  cases vs with
  | nil => exact absurd rfl hvs
  | cons v vs =>
    have h1 := h.file t v u (insert_ptrMap hu)
    have hn' : ((H ++ [u]).map (·.ptr)).Nodup := by
      rw [List.map_append, List.nodup_append]
      refine ⟨hn, by simp, ?_⟩
      intro a ha b hb e
      simp at hb; subst hb
      obtain ⟨w, hw, rfl⟩ := List.mem_map.mp ha
      exact hu w hw e
    have := h1.fileMore hn' (u := u) (by simp) t vs
    rw [List.foldl_cons, List.foldl_cons, List.sum_cons, ← add_assoc]
    exact this

/-- Taking a UTxO out of the set together with one filing. -/
theorem SetG.unfile {H : List Utxo} {bal : ℚ} {F : Filing} {s : USet} (h : SetG H bal F s)
    (v : ℚ) (p : Pointer) :
    SetG (H.filter (fun w => w.ptr ≠ p)) (bal - v) (F.remove p v)
      (({ s with set := s.set.erase p } : USet).finishRemove v p) := by
  refine ⟨?_, ?_, sorted_bucketRemove _ _ _ h.sorted, ?_, ?_, ?_⟩
  · simp only [USet.finishRemove, h.set_eq, erase_ptrMap]
  · simp only [USet.finishRemove, h.balance_eq]
  · intro w q x hx
    unfold Filing.remove at hx
    split at hx
    · cases hx
    · exact h.ptr _ _ _ hx
  · intro w hw q
    simp only [USet.finishRemove, get_bucketRemove _ _ _ h.sorted] at hw
    unfold Filing.remove
    split at hw
    · rename_i he
      subst he
      split
      · rfl
      · rename_i hc
        cases hg : AMap.get s.ordered v with
        | none => exact h.absent v hg q
        | some b =>
          rw [hg] at hw
          simp only [Option.bind_some] at hw
          split at hw
          · rename_i hb
            have := get_erase b p q
            rw [hb] at this
            have hpq : ¬ p = q := fun e => hc ⟨e.symm, rfl⟩
            simp only [get_nil, hpq, if_false] at this
            rw [← (h.present v b hg).2.2 q]; exact this.symm
          · cases hw
    · rename_i hne
      rw [if_neg (fun e => hne e.2.symm)]
      exact h.absent w hw q
  · intro w b hw
    simp only [USet.finishRemove, get_bucketRemove _ _ _ h.sorted] at hw
    unfold Filing.remove
    split at hw
    · rename_i he
      subst he
      cases hg : AMap.get s.ordered v with
      | none => rw [hg] at hw; cases hw
      | some c =>
        rw [hg] at hw
        simp only [Option.bind_some] at hw
        split at hw
        · cases hw
        · rename_i hb
          cases hw
          obtain ⟨_, h2, h3⟩ := h.present v c hg
          refine ⟨hb, nodup_erase h2 p, ?_⟩
          intro q
          rw [get_erase, h3 q]
          by_cases hq : p = q
          · simp [hq]
          · have : ¬ q = p := fun e => hq e.symm
            simp [hq, this]
    · rename_i hne
      obtain ⟨h1, h2, h3⟩ := h.present w b hw
      refine ⟨h1, h2, ?_⟩
      intro q
      rw [if_neg (fun e => hne e.2.symm)]
      exact h3 q

/-! ### The store -/

/-- What `insert` leaves for a token. -/
theorem insertAsset_fold_amounts (u : Utxo) (as : List Asset) (st : UStore) (t : Token) :
    (as.foldl (UStore.insertAsset u) st).byPolicy.get t =
      ((as.filter (fun a => a.fingerprint = t)).map (·.quantity)).foldl
        (fun o v => some ((o.getD {}).addValue t v u)) (st.byPolicy.get t) := by
  induction as generalizing st with
  | nil => rfl
  | cons a as ih =>
    rw [List.foldl_cons, ih]
    by_cases h : a.fingerprint = t
    · subst h
      rw [List.filter_cons_of_pos (by simp)]
      simp [UStore.insertAsset, get_insert]
    · rw [List.filter_cons_of_neg (by simpa using h)]
      simp [UStore.insertAsset, get_insert, h]

theorem foldl_some_add (t : Token) (u : Utxo) (vs : List ℚ) (o : Option USet) :
    vs.foldl (fun o v => some ((o.getD {}).addValue t v u)) o =
      if vs = [] then o else some (vs.foldl (fun s v => s.addValue t v u) (o.getD {})) := by
  induction vs generalizing o with
  | nil => rfl
  | cons v vs ih =>
    rw [List.foldl_cons, ih]
    by_cases h : vs = []
    · simp [h]
    · simp [h]

/-- What `insert` leaves for a token, in terms of the amounts of the UTxO. -/
theorem insert_get {st st' : UStore} {u : Utxo} (h : st.insert u = .ok st') (t : Token) :
    st'.byPolicy.get t =
      if amounts t u = [] then st.byPolicy.get t
      else some ((amounts t u).foldl (fun s v => s.addValue t v u) ((st.byPolicy.get t).getD {})) := by
  rw [UStore.insert_eq] at h
  split at h
  · cases h
  · cases h
    rw [insertAsset_fold_amounts, ← foldl_some_add]
    unfold amounts
    by_cases ht : t = mainToken
    · subst ht
      simp [get_insert]
    · have ht' : ¬ mainToken = t := fun e => ht e.symm
      simp [get_insert, ht, ht']

/-- What `remove` does to the entry of a token it visits. -/
def dropFrom (p : Pointer) (o : Option USet) : Option USet :=
  o.bind (fun s => (s.removeFromAsset p).bind (fun s' => if s'.set = [] then none else some s'))

theorem removeFromAsset_set {s s' : USet} {p : Pointer} (h : s.removeFromAsset p = some s') :
    s'.set = s.set.erase p := by
  unfold USet.removeFromAsset at h
  cases hg : s.set.get p with
  | none =>
    rw [hg] at h
    cases h
    rw [erase_absent ((get_eq_none_iff _ _).mp hg)]
  | some u =>
    rw [hg] at h
    simp only at h
    split at h
    · cases h; rfl
    · split at h
      · cases h; rfl
      · cases h

theorem dropFrom_idem (p : Pointer) (o : Option USet) : dropFrom p (dropFrom p o) = dropFrom p o := by
  unfold dropFrom
  cases o with
  | none => rfl
  | some s =>
    simp only [Option.bind_some]
    cases hr : s.removeFromAsset p with
    | none => rfl
    | some s' =>
      simp only [Option.bind_some]
      by_cases he : s'.set = []
      · simp [he]
      · simp only [he, if_false, Option.bind_some]
        have hs := removeFromAsset_set hr
        have hg : s'.set.get p = none := by rw [hs, get_erase]; simp
        have : s'.removeFromAsset p = some s' := by unfold USet.removeFromAsset; rw [hg]
        rw [this]
        simp [he]

theorem removeToken_get {p : Pointer} {m m1 : AMap Token USet} {a : Token}
    (h1 : UStore.removeToken p m a = some m1) (t : Token) :
    m1.get t = if a = t then dropFrom p (m.get t) else m.get t := by
  unfold UStore.removeToken at h1
  unfold dropFrom
  cases hg : m.get a with
  | none =>
    simp [hg] at h1; subst h1
    by_cases he : a = t
    · subst he; simp [hg]
    · simp [he]
  | some s =>
    simp only [hg] at h1
    cases hr : s.removeFromAsset p with
    | none => simp [hr] at h1
    | some s' =>
      simp only [hr] at h1
      by_cases hs : s'.set = []
      · simp only [hs, if_true, Option.some.injEq] at h1
        subst h1
        rw [get_erase]
        by_cases he : a = t
        · subst he; simp [hg, hr, hs]
        · simp [he]
      · simp only [hs, if_false, Option.some.injEq] at h1
        subst h1
        rw [get_insert]
        by_cases he : a = t
        · subst he; simp [hg, hr, hs]
        · simp [he]

/-- The loop of `remove`, whatever the list of tokens repeats. -/
theorem removeTokens_get' (p : Pointer) (ts : List Token) (m m' : AMap Token USet)
    (h : UStore.removeTokens p m ts = some m') (t : Token) :
    m'.get t = if t ∈ ts then dropFrom p (m.get t) else m.get t := by
  induction ts generalizing m with
  | nil => simp [UStore.removeTokens] at h; subst h; simp
  | cons a ts ih =>
    unfold UStore.removeTokens at h
    cases h1 : UStore.removeToken p m a with
    | none => simp [h1] at h
    | some m1 =>
      simp only [h1] at h
      rw [ih m1 h, removeToken_get h1]
      by_cases he : a = t
      · subst he
        simp only [if_true, List.mem_cons, true_or]
        split
        · exact dropFrom_idem p _
        · rfl
      · have : ¬ t = a := fun e => he e.symm
        simp [he, this]

/-- The state of one token of a store: the UTxOs holding it, a surplus of the balance, and the
filings. -/
def TokenX (t : Token) (L : List Utxo) (d : ℚ) (F : Filing) (st : UStore) : Prop :=
  (holders t L = [] → st.byPolicy.get t = none ∧ d = 0 ∧ F = fun _ _ => none) ∧
  (holders t L ≠ [] → ∃ s, st.byPolicy.get t = some s ∧
    SetG (holders t L) ((L.map (fun u => (amounts t u).sum)).sum + d) F s)

theorem TokenX.new (t : Token) : TokenX t [] 0 (fun _ _ => none) UStore.new := by
  constructor
  · intro _; exact ⟨rfl, rfl, rfl⟩
  · intro h; simp [holders] at h

theorem sum_no_holders {t : Token} {L : List Utxo} (h : holders t L = []) :
    (L.map (fun u => (amounts t u).sum)).sum = 0 := by
  apply List.sum_eq_zero
  intro x hx
  obtain ⟨u, hu, rfl⟩ := List.mem_map.mp hx
  have : amounts t u = [] := by
    rw [amounts_eq_nil]
    by_contra hc
    have : u ∈ holders t L := mem_holders.mpr ⟨hu, by
      cases ha : amountOf t u with
      | none => exact absurd ha hc
      | some v => simp⟩
    rw [h] at this; simp at this
  rw [this]; rfl

theorem TokenX.setG {t : Token} {L : List Utxo} {d : ℚ} {F : Filing} {st : UStore}
    (h : TokenX t L d F st) :
    SetG (holders t L) ((L.map (fun u => (amounts t u).sum)).sum + d) F
      ((st.byPolicy.get t).getD {}) := by
  by_cases he : holders t L = []
  · obtain ⟨h1, h2, h3⟩ := h.1 he
    rw [h1, he, sum_no_holders he, h2, h3]
    simpa using SetG.empty
  · obtain ⟨s, hs, hok⟩ := h.2 he
    rw [hs]; exact hok

theorem TokenX.insert {t : Token} {L : List Utxo} {d : ℚ} {F : Filing} {st st' : UStore}
    (hc : Contents L st) (h : TokenX t L d F st) {u : Utxo} (hi : st.insert u = .ok st')
    (hu : ∀ w ∈ L, w.ptr ≠ u.ptr) :
    TokenX t (L ++ [u]) d (fun w p => if p = u.ptr ∧ w ∈ amounts t u then some u else F w p) st' := by
  have hget := insert_get hi t
  by_cases ha : amounts t u = []
  · rw [if_pos ha] at hget
    have hh : holders t (L ++ [u]) = holders t L := by
      rw [holders_append, amounts_eq_nil.mp ha]; simp
    have hsum : ((L ++ [u]).map (fun u => (amounts t u).sum)).sum =
        (L.map (fun u => (amounts t u).sum)).sum := by simp [ha]
    have hF : (fun w p => if p = u.ptr ∧ w ∈ amounts t u then some u else F w p) = F := by
      funext w p; simp [ha]
    unfold TokenX
    rw [hh, hsum, hF, hget]
    exact h
  · rw [if_neg ha] at hget
    have hh : holders t (L ++ [u]) = holders t L ++ [u] := by
      rw [holders_append, if_pos]
      cases hv : amountOf t u with
      | none => exact absurd (amounts_eq_nil.mpr hv) ha
      | some v => rfl
    constructor
    · intro e; rw [hh] at e; simp at e
    · intro _
      refine ⟨_, hget, ?_⟩
      have hn : ((holders t L).map (·.ptr)).Nodup := hc.nodup.sublist (List.filter_sublist.map _)
      have := h.setG.fileNew hn (fun w hw => hu w (mem_holders.mp hw).1) t ha
      rw [Filing.foldl_add] at this
      rw [hh, List.map_append, List.sum_append]
      simp only [List.map_cons, List.map_nil, List.sum_cons, List.sum_nil, add_zero]
      rw [add_right_comm]
      exact this

theorem mem_tokens_iff {t : Token} {u : Utxo} :
    t ∈ u.assets.map (·.fingerprint) ++ [mainToken] ↔ ∃ v, amountOf t u = some v := by
  unfold amountOf
  by_cases ht : t = mainToken
  · simp [ht]
  · simp only [ht, if_false, List.mem_append, List.mem_map, List.mem_singleton, or_false,
      Option.map_eq_some_iff]
    constructor
    · rintro ⟨a, ha, rfl⟩
      have : (u.assets.find? (fun b => b.fingerprint = a.fingerprint)).isSome := by
        rw [List.find?_isSome]; exact ⟨a, ha, by simp⟩
      obtain ⟨b, hb⟩ := Option.isSome_iff_exists.mp this
      exact ⟨b.quantity, b, hb, rfl⟩
    · rintro ⟨v, a, ha, _⟩
      exact ⟨a, List.mem_of_find?_eq_some ha, by simpa using List.find?_some ha⟩

theorem TokenX.remove {t : Token} {L : List Utxo} {d : ℚ} {F : Filing} {st st' : UStore}
    (hc : Contents L st) (h : TokenX t L d F st) {u : Utxo} (hu : u ∈ L)
    (hr : st.remove u.ptr = .ok st') :
    TokenX t (L.filter (fun w => w.ptr ≠ u.ptr))
      (if holders t (L.filter (fun w => w.ptr ≠ u.ptr)) = [] then 0
        else d + (amounts t u).tail.sum)
      (if holders t (L.filter (fun w => w.ptr ≠ u.ptr)) = [] then (fun _ _ => none)
        else fun v q => if q = u.ptr ∧ (amounts t u).head? = some v then none else F v q) st' := by
  have hn := hc.nodup
  rw [UStore.remove_eq] at hr
  have hget : st.utxos.set.get u.ptr = some u := by
    rw [hc.set_eq, get_ptrMap hn]; exact ⟨hu, rfl⟩
  simp only [USet.removeFromMain, hget] at hr
  have hsplit : holders t (L.filter (fun w => w.ptr ≠ u.ptr)) =
      (holders t L).filter (fun w => w.ptr ≠ u.ptr) := by
    unfold holders; rw [filter_comm_ptr]
  cases hm' : UStore.removeTokens u.ptr st.byPolicy (u.assets.map (·.fingerprint) ++ [mainToken]) with
  | none => simp [hm'] at hr
  | some m' =>
    simp only [hm'] at hr
    cases hr
    have hg := removeTokens_get' _ _ _ _ hm' t
    have hsumr := sum_remove (fun u => (amounts t u).sum) hn hu
    by_cases hv : ∃ v, amountOf t u = some v
    · rw [if_pos (mem_tokens_iff.mpr hv)] at hg
      obtain ⟨v, hv⟩ := hv
      have hin : u ∈ holders t L := mem_holders.mpr ⟨hu, by simp [hv]⟩
      have hne : holders t L ≠ [] := by intro e; rw [e] at hin; simp at hin
      obtain ⟨s, hs, hok⟩ := h.2 hne
      have hid := (hc.tokens t s hs).1
      have hrem : s.removeFromAsset u.ptr =
          some (({ s with set := s.set.erase u.ptr } : USet).finishRemove v u.ptr) := by
        unfold USet.removeFromAsset
        have hsg : s.set.get u.ptr = some u := by
          rw [hok.set_eq, get_ptrMap]
          · exact ⟨hin, rfl⟩
          · exact hn.sublist (List.filter_sublist.map _)
        simp only [hsg, hid]
        unfold amountOf at hv
        by_cases ht : t = mainToken
        · simp only [ht, if_true, Option.some.injEq] at hv ⊢; rw [hv]
        · simp only [ht, if_false, Option.map_eq_some_iff] at hv ⊢
          obtain ⟨a, ha, rfl⟩ := hv
          simp only [ha]
      have hu' := hok.unfile v u.ptr
      rw [hs] at hg
      simp only [dropFrom, Option.bind_some, hrem] at hg
      have hempty : ((({ s with set := s.set.erase u.ptr } : USet).finishRemove v u.ptr).set = []) ↔
          holders t (L.filter (fun w => w.ptr ≠ u.ptr)) = [] := by
        rw [hu'.set_eq, ptrMap_eq_nil, hsplit]
      by_cases he : holders t (L.filter (fun w => w.ptr ≠ u.ptr)) = []
      · rw [if_pos (hempty.mpr he)] at hg
        rw [if_pos he, if_pos he]
        exact ⟨fun _ => ⟨hg, rfl, rfl⟩, fun e => absurd he e⟩
      · rw [if_neg (fun e => he (hempty.mp e))] at hg
        rw [if_neg he, if_neg he]
        refine ⟨fun e => absurd e he, fun _ => ⟨_, hg, ?_⟩⟩
        have hF : (fun w q => if q = u.ptr ∧ (amounts t u).head? = some w then none else F w q) =
            F.remove u.ptr v := by
          funext w q
          unfold Filing.remove
          rw [← amountOf_eq_head, hv]
          by_cases hq : q = u.ptr <;> by_cases hw : w = v
          · simp [hw]
          · have hw' : ¬ v = w := fun e => hw e.symm
            simp [hw, hw']
          · simp [hq]
          · simp [hq]
        have hb : ((L.filter (fun w => w.ptr ≠ u.ptr)).map (fun u => (amounts t u).sum)).sum +
            (d + (amounts t u).tail.sum) =
            (L.map (fun u => (amounts t u).sum)).sum + d - v := by
          rw [hsumr]
          have : (amounts t u).sum = v + (amounts t u).tail.sum := by
            rw [amountOf_eq_head] at hv
            cases hl : amounts t u with
            | nil => rw [hl] at hv; cases hv
            | cons a l => rw [hl] at hv; cases hv; simp
          rw [this]; ring
        rw [hF, hb, hsplit]
        exact hu'
    · rw [if_neg (fun e => hv (mem_tokens_iff.mp e))] at hg
      have hnone : amountOf t u = none := by
        cases ha : amountOf t u with
        | none => rfl
        | some v => exact absurd ⟨v, ha⟩ hv
      have ham := amounts_eq_nil.mpr hnone
      have heq : (holders t L).filter (fun w => w.ptr ≠ u.ptr) = holders t L :=
        filter_ptr_none hn hu (by simp [hnone])
      have hs : ((L.filter (fun w => w.ptr ≠ u.ptr)).map (fun u => (amounts t u).sum)).sum =
          (L.map (fun u => (amounts t u).sum)).sum := by
        rw [hsumr, ham]; simp
      rw [heq] at hsplit
      unfold TokenX
      simp only [hg, hs, hsplit, ham, List.tail_nil, List.sum_nil, add_zero, List.head?_nil]
      by_cases he : holders t L = []
      · simp only [he, if_true]
        exact ⟨fun _ => ⟨(h.1 he).1, trivial, trivial⟩, fun e => absurd rfl e⟩
      · simp only [he, if_false]
        refine ⟨fun e => absurd e id, fun _ => ?_⟩
        simpa using h.2 he

/-! ### The ordered listing -/

/-- The ordered listing shows the filings, by ascending amount, each once. -/
theorem SetG.ordered {H : List Utxo} {bal : ℚ} {F : Filing} {s : USet} (h : SetG H bal F s) :
    ∃ K : List (ℚ × Utxo), s.orderedUtxos = K.map (·.2) ∧
      K.Pairwise (fun a b => a.1 ≤ b.1) ∧ K.Nodup ∧ (∀ v u, (v, u) ∈ K ↔ F v u.ptr = some u) := by
  have hk : (AMap.keys s.ordered).Nodup := h.sorted.imp (fun hlt => ne_of_lt hlt)
  have hget : ∀ b ∈ s.ordered, AMap.get s.ordered b.1 = some b.2 := fun b hb =>
    AMap.get_of_mem hk (k := b.1) (v := b.2) hb
  have hp : s.ordered.Pairwise (fun a b => a.1 < b.1) := List.pairwise_map.mp h.sorted
  refine ⟨s.ordered.flatMap (fun b => b.2.map (fun x => (b.1, x.2))), ?_, ?_, ?_, ?_⟩
  · simp [USet.orderedUtxos, List.map_flatMap, Function.comp_def]
  · rw [List.pairwise_flatMap]
    constructor
    · intro b _
      rw [List.pairwise_map]
      exact List.pairwise_of_forall (fun _ _ => le_refl _)
    · apply hp.imp
      intro a b hab x hx y hy
      obtain ⟨_, _, rfl⟩ := List.mem_map.mp hx
      obtain ⟨_, _, rfl⟩ := List.mem_map.mp hy
      exact le_of_lt hab
  · rw [List.nodup_flatMap]
    constructor
    · intro b hb
      obtain ⟨_, h2, h3⟩ := h.present b.1 b.2 (hget b hb)
      have hx : b.2.Nodup := List.Nodup.of_map _ h2
      rw [List.nodup_map_iff_inj_on hx]
      intro x hx y hy e
      have e2 : x.2 = y.2 := (Prod.mk.inj e).2
      have fx : x.2.ptr = x.1 := by
        apply h.ptr b.1 x.1
        rw [← h3]; exact AMap.get_of_mem h2 (k := x.1) (v := x.2) hx
      have fy : y.2.ptr = y.1 := by
        apply h.ptr b.1 y.1
        rw [← h3]; exact AMap.get_of_mem h2 (k := y.1) (v := y.2) hy
      exact Prod.ext (by rw [← fx, ← fy, e2]) e2
    · apply hp.imp
      intro a b hab
      simp only [Function.onFun]
      intro x hx hy
      obtain ⟨_, _, rfl⟩ := List.mem_map.mp hx
      obtain ⟨_, _, he⟩ := List.mem_map.mp hy
      exact absurd (Prod.mk.inj he).1.symm (ne_of_lt hab)
  · intro v u
    rw [List.mem_flatMap]
    constructor
    · rintro ⟨b, hb, hx⟩
      obtain ⟨x, hx', he⟩ := List.mem_map.mp hx
      obtain ⟨e1, e2⟩ := Prod.mk.inj he
      subst e1
      subst e2
      obtain ⟨_, h2, h3⟩ := h.present b.1 b.2 (hget b hb)
      have hg := AMap.get_of_mem h2 (k := x.1) (v := x.2) hx'
      rw [h3] at hg
      rw [h.ptr _ _ _ hg]; exact hg
    · intro hF
      cases hg : AMap.get s.ordered v with
      | none => rw [h.absent v hg] at hF; cases hF
      | some b =>
        refine ⟨(v, b), AMap.mem_of_get hg, List.mem_map.mpr ⟨(u.ptr, u), ?_, rfl⟩⟩
        apply AMap.mem_of_get
        rw [(h.present v b hg).2.2]; exact hF

/-- The reverse listing shows the filings, by descending amount, each once. -/
theorem SetG.orderedRev {H : List Utxo} {bal : ℚ} {F : Filing} {s : USet} (h : SetG H bal F s) :
    ∃ K : List (ℚ × Utxo), s.orderedUtxosRev = K.map (·.2) ∧
      K.Pairwise (fun a b => b.1 ≤ a.1) ∧ K.Nodup ∧ (∀ v u, (v, u) ∈ K ↔ F v u.ptr = some u) := by
  have hk : (AMap.keys s.ordered).Nodup := h.sorted.imp (fun hlt => ne_of_lt hlt)
  have hget : ∀ b ∈ s.ordered, AMap.get s.ordered b.1 = some b.2 := fun b hb =>
    AMap.get_of_mem hk (k := b.1) (v := b.2) hb
  have hp : s.ordered.Pairwise (fun a b => a.1 < b.1) := List.pairwise_map.mp h.sorted
  refine ⟨s.ordered.reverse.flatMap (fun b => b.2.map (fun x => (b.1, x.2))), ?_, ?_, ?_, ?_⟩
  · simp [USet.orderedUtxosRev, List.map_flatMap, Function.comp_def]
  · rw [List.pairwise_flatMap]
    constructor
    · intro b _
      rw [List.pairwise_map]
      exact List.pairwise_of_forall (fun _ _ => le_refl _)
    · rw [List.pairwise_reverse]
      apply hp.imp
      intro a b hab x hx y hy
      obtain ⟨_, _, rfl⟩ := List.mem_map.mp hx
      obtain ⟨_, _, rfl⟩ := List.mem_map.mp hy
      exact le_of_lt hab
  · rw [List.nodup_flatMap]
    constructor
    · intro b hb
      replace hb := List.mem_reverse.mp hb
      obtain ⟨_, h2, h3⟩ := h.present b.1 b.2 (hget b hb)
      have hx : b.2.Nodup := List.Nodup.of_map _ h2
      rw [List.nodup_map_iff_inj_on hx]
      intro x hx y hy e
      have e2 : x.2 = y.2 := (Prod.mk.inj e).2
      have fx : x.2.ptr = x.1 := by
        apply h.ptr b.1 x.1
        rw [← h3]; exact AMap.get_of_mem h2 (k := x.1) (v := x.2) hx
      have fy : y.2.ptr = y.1 := by
        apply h.ptr b.1 y.1
        rw [← h3]; exact AMap.get_of_mem h2 (k := y.1) (v := y.2) hy
      exact Prod.ext (by rw [← fx, ← fy, e2]) e2
    · rw [List.pairwise_reverse]
      apply hp.imp
      intro a b hab
      simp only [Function.onFun]
      intro x hx hy
      obtain ⟨_, _, rfl⟩ := List.mem_map.mp hx
      obtain ⟨_, _, he⟩ := List.mem_map.mp hy
      exact absurd (Prod.mk.inj he).1 (ne_of_lt hab)
  · intro v u
    rw [List.mem_flatMap]
    constructor
    · rintro ⟨b, hb, hx⟩
      replace hb := List.mem_reverse.mp hb
      obtain ⟨x, hx', he⟩ := List.mem_map.mp hx
      obtain ⟨e1, e2⟩ := Prod.mk.inj he
      subst e1
      subst e2
      obtain ⟨_, h2, h3⟩ := h.present b.1 b.2 (hget b hb)
      have hg := AMap.get_of_mem h2 (k := x.1) (v := x.2) hx'
      rw [h3] at hg
      rw [h.ptr _ _ _ hg]; exact hg
    · intro hF
      cases hg : AMap.get s.ordered v with
      | none => rw [h.absent v hg] at hF; cases hF
      | some b =>
        refine ⟨(v, b), List.mem_reverse.mpr (AMap.mem_of_get hg), List.mem_map.mpr ⟨(u.ptr, u), ?_, rfl⟩⟩
        apply AMap.mem_of_get
        rw [(h.present v b hg).2.2]; exact hF

end Verif.Core
