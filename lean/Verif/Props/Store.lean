import Verif.Core.UtxoDup
import Mathlib.Tactic.NormNum

/-!
# UTxO store properties (C34–C37, C56)

Specification: the contents of a store are a list `L` of UTxOs in insertion order.
-/

namespace Verif.Props

open Verif Verif.Core

/-! ## Specification -/

/-- Mutating calls. -/
inductive StoreOp where
  | insert (u : Utxo)
  | remove (p : Pointer)

/-- What a call must answer and leave behind, on plain lists. -/
def StoreOp.spec (L : List Utxo) : StoreOp → Except StoreErr Unit × List Utxo
  | .insert u =>
    if ∃ w ∈ L, w.ptr = u.ptr then (.error .alreadyInserted, L) else (.ok (), L ++ [u])
  | .remove p =>
    if ∃ w ∈ L, w.ptr = p then (.ok (), L.filter (fun w => w.ptr ≠ p)) else (.error .notFound, L)

/-- What the code answers and leaves behind. -/
def StoreOp.run (st : UStore) : StoreOp → Except StoreErr Unit × UStore
  | .insert u => st.insertM u
  | .remove p => st.removeM p

/-- Answers and final contents of a history, by the specification. -/
def specHistory (L : List Utxo) : List StoreOp → List (Except StoreErr Unit) × List Utxo
  | [] => ([], L)
  | o :: os =>
    ((o.spec L).1 :: (specHistory (o.spec L).2 os).1, (specHistory (o.spec L).2 os).2)

/-- Answers and final state of a history, by the code. -/
def runHistory (st : UStore) : List StoreOp → List (Except StoreErr Unit) × UStore
  | [] => ([], st)
  | o :: os =>
    ((o.run st).1 :: (runHistory (o.run st).2 os).1, (runHistory (o.run st).2 os).2)

/-- The UTxO holds the token. Every UTxO holds the main token. -/
def Holds (t : Token) (u : Utxo) : Prop := t = mainToken ∨ ∃ a ∈ u.assets, a.fingerprint = t

instance (t : Token) (u : Utxo) : Decidable (Holds t u) := by unfold Holds; infer_instance

/-- Amount of a token in a UTxO. -/
def held (t : Token) (u : Utxo) : ℚ :=
  if t = mainToken then u.value
  else ((u.assets.filter (fun a => a.fingerprint = t)).map (·.quantity)).sum

/-! ## Glue between specification and lemmas -/

theorem exists_ptr_iff (L : List Utxo) (p : Pointer) :
    (∃ w ∈ L, w.ptr = p) ↔ p ∈ L.map (·.ptr) := by simp

theorem contents_step {L : List Utxo} {st : UStore} (h : Contents L st) (o : StoreOp) :
    (o.run st).1 = (o.spec L).1 ∧ Contents (o.spec L).2 (o.run st).2 := by
  cases o with
  | insert u =>
    have h1 := h.insert u
    simp only [StoreOp.run, StoreOp.spec, exists_ptr_iff]
    split at h1
    · rename_i hm
      rw [insertM_of_error h1, if_pos hm]; exact ⟨rfl, h⟩
    · rename_i hm
      obtain ⟨st', h2, h3⟩ := h1
      rw [insertM_of_insert h2, if_neg hm]; exact ⟨rfl, h3⟩
  | remove p =>
    have h1 := h.remove p
    simp only [StoreOp.run, StoreOp.spec, exists_ptr_iff]
    split at h1
    · rename_i hm
      obtain ⟨st', h2, h3⟩ := h1
      rw [removeM_of_remove h2, if_pos hm]; exact ⟨rfl, h3⟩
    · rename_i hm
      rw [removeM_of_error h1, if_neg hm]; exact ⟨rfl, h⟩

theorem contents_history {L : List Utxo} {st : UStore} (h : Contents L st) (ops : List StoreOp) :
    (runHistory st ops).1 = (specHistory L ops).1 ∧
    Contents (specHistory L ops).2 (runHistory st ops).2 := by
  induction ops generalizing L st with
  | nil => exact ⟨rfl, h⟩
  | cons o os ih =>
    obtain ⟨h1, h2⟩ := contents_step h o
    obtain ⟨h3, h4⟩ := ih h2
    simp only [runHistory, specHistory]
    exact ⟨by rw [h1, h3], h4⟩

theorem amountOf_held {u : Utxo} (hd : DistinctAssets u) (t : Token) :
    (amountOf t u).getD 0 = held t u := by
  unfold held
  by_cases ht : t = mainToken
  · simp [amountOf, ht]
  · rw [if_neg ht]
    unfold amountOf
    rw [if_neg ht]
    have hn := hd.1
    generalize u.assets = as at hn
    induction as with
    | nil => simp
    | cons a as ih =>
      simp only [List.map_cons, List.nodup_cons] at hn
      by_cases ha : a.fingerprint = t
      · have : as.filter (fun a => decide (a.fingerprint = t)) = [] := by
          rw [List.filter_eq_nil_iff]
          intro b hb
          have : b.fingerprint ≠ t := by
            intro e; exact hn.1 (List.mem_map.mpr ⟨b, hb, by rw [e, ha]⟩)
          simpa using this
        rw [List.find?_cons_of_pos (by simpa using ha), List.filter_cons_of_pos (by simpa using ha),
          this]
        simp
      · rw [List.find?_cons_of_neg (by simpa using ha), List.filter_cons_of_neg (by simpa using ha)]
        exact ih hn.2

theorem holders_eq_filter (t : Token) (L : List Utxo) : holders t L = L.filter (Holds t) := by
  unfold holders
  apply List.filter_congr
  intro u _
  rw [Bool.eq_iff_iff]
  unfold amountOf Holds
  by_cases ht : t = mainToken
  · simp [ht]
  · simp [ht, List.find?_isSome]

theorem mainId_run {st : UStore} (h : st.utxos.tokenId = mainToken) (o : StoreOp) :
    (o.run st).2.utxos.tokenId = mainToken := by
  cases o with
  | insert u =>
    simp only [StoreOp.run, UStore.insertM]
    split
    · exact h
    · simp only [insertAsset_fold_utxos]; rfl
  | remove p =>
    simp only [StoreOp.run, UStore.removeM, USet.removeFromMain]
    cases hg : st.utxos.set.get p with
    | none => exact h
    | some u =>
      simp only
      cases UStore.removeTokens p st.byPolicy (u.assets.map (·.fingerprint) ++ [mainToken]) with
      | none => exact h
      | some m => exact h

theorem mainId_history {st : UStore} (h : st.utxos.tokenId = mainToken) (ops : List StoreOp) :
    (runHistory st ops).2.utxos.tokenId = mainToken := by
  induction ops generalizing st with
  | nil => exact h
  | cons o os ih => exact ih (mainId_run h o)

/-! ## Every UTxO, also those naming an asset several times -/

/-- The amounts of a token a UTxO names, in order. The main token is named by the UTxO's own value. -/
def mentions (t : Token) (u : Utxo) : List ℚ :=
  (if t = mainToken then [u.value] else []) ++
    (u.assets.filter (fun a => a.fingerprint = t)).map (·.quantity)

/-- How far the reported balance of a token is above the contents. Removing a UTxO takes back the
first amount it names; the others stay, until no UTxO with the token is left. -/
def surplus (t : Token) : List Utxo → ℚ → List StoreOp → ℚ
  | _, d, [] => d
  | L, d, .insert u :: os => surplus t (StoreOp.spec L (.insert u)).2 d os
  | L, d, .remove p :: os =>
    surplus t (StoreOp.spec L (.remove p)).2
      (if ∃ u ∈ (StoreOp.spec L (.remove p)).2, Holds t u then
        d + ((L.filter (fun u => u.ptr = p)).map (fun u => (mentions t u).tail.sum)).sum
       else 0) os

/-- What the ordered listings of a token show: under which amount which UTxO. An inserted UTxO is
filed under every amount it names. Removing it takes away the first filing; the others stay, until
no UTxO with the token is left. -/
def filed (t : Token) : List Utxo → (ℚ → Pointer → Option Utxo) → List StoreOp →
    ℚ → Pointer → Option Utxo
  | _, F, [] => F
  | L, F, .insert u :: os =>
    filed t (StoreOp.spec L (.insert u)).2
      (if ∃ w ∈ L, w.ptr = u.ptr then F
       else fun v p => if p = u.ptr ∧ v ∈ mentions t u then some u else F v p) os
  | L, F, .remove p :: os =>
    filed t (StoreOp.spec L (.remove p)).2
      (if ∃ u ∈ (StoreOp.spec L (.remove p)).2, Holds t u then
        fun v q => if q = p ∧ ∃ u ∈ L, u.ptr = p ∧ (mentions t u).head? = some v then none else F v q
       else fun _ _ => none) os

theorem exists_holds_iff (t : Token) (L : List Utxo) : (∃ u ∈ L, Holds t u) ↔ holders t L ≠ [] := by
  rw [holders_eq_filter, ne_eq, List.filter_eq_nil_iff]
  push Not
  simp

theorem filter_ptr_eq {L : List Utxo} (hn : (L.map (·.ptr)).Nodup) {u : Utxo} (hu : u ∈ L) :
    L.filter (fun w => w.ptr = u.ptr) = [u] := by
  induction L with
  | nil => simp at hu
  | cons a L ih =>
    simp only [List.map_cons, List.nodup_cons] at hn
    rcases List.mem_cons.mp hu with rfl | hu'
    · rw [List.filter_cons_of_pos (by simp)]
      congr 1
      rw [List.filter_eq_nil_iff]
      intro w hw
      have : w.ptr ≠ u.ptr := by
        intro e; exact hn.1 (List.mem_map.mpr ⟨w, hw, e⟩)
      simpa using this
    · have hne : a.ptr ≠ u.ptr := by
        intro e; exact hn.1 (List.mem_map.mpr ⟨u, hu', e.symm⟩)
      rw [List.filter_cons_of_neg (by simpa using hne)]
      exact ih hn.2 hu'

theorem tokenX_history (t : Token) {L : List Utxo} {st : UStore} {d : ℚ} {F : Filing}
    (hc : Contents L st) (h : TokenX t L d F st) (ops : List StoreOp) :
    TokenX t (specHistory L ops).2 (surplus t L d ops) (filed t L F ops) (runHistory st ops).2 := by
  induction ops generalizing L st d F with
  | nil => exact h
  | cons o os ih =>
    have hs := contents_step hc o
    cases o with
    | insert u =>
      simp only [specHistory, runHistory, surplus, filed]
      apply ih hs.2
      have h1 := hc.insert u
      simp only [← exists_ptr_iff] at h1
      by_cases hm : ∃ w ∈ L, w.ptr = u.ptr
      · rw [if_pos hm] at h1
        simp only [StoreOp.run, StoreOp.spec, if_pos hm]
        rw [insertM_of_error h1]; exact h
      · rw [if_neg hm] at h1
        obtain ⟨st', h2, h3⟩ := h1
        simp only [StoreOp.run, StoreOp.spec, if_neg hm]
        rw [insertM_of_insert h2]
        exact h.insert hc h2 (fun w hw e => hm ⟨w, hw, e⟩)
    | remove p =>
      simp only [specHistory, runHistory, surplus, filed]
      apply ih hs.2
      have h1 := hc.remove p
      simp only [← exists_ptr_iff] at h1
      by_cases hm : ∃ w ∈ L, w.ptr = p
      · rw [if_pos hm] at h1
        obtain ⟨st', h2, h3⟩ := h1
        simp only [StoreOp.run, StoreOp.spec, if_pos hm]
        rw [removeM_of_remove h2]
        obtain ⟨u, hu, rfl⟩ := hm
        have h4 := h.remove hc hu h2
        rw [filter_ptr_eq hc.nodup hu]
        simp only [exists_holds_iff, List.map_cons, List.map_nil, List.sum_cons, List.sum_nil,
          add_zero]
        have hF : (fun v q => if q = u.ptr ∧ ∃ w ∈ L, w.ptr = u.ptr ∧ (mentions t w).head? = some v
            then none else F v q) =
            fun v q => if q = u.ptr ∧ (amounts t u).head? = some v then none else F v q := by
          funext v q
          have : (∃ w ∈ L, w.ptr = u.ptr ∧ (mentions t w).head? = some v) ↔
              (amounts t u).head? = some v := by
            constructor
            · rintro ⟨w, hw, e, hv⟩
              have := List.inj_on_of_nodup_map hc.nodup hw hu e
              subst this; exact hv
            · intro hv; exact ⟨u, hu, rfl, hv⟩
          simp only [this]
        rw [hF]
        by_cases he : holders t (L.filter (fun w => w.ptr ≠ u.ptr)) = []
        · simp only [he, if_true, ne_eq, not_true_eq_false, if_false] at h4 ⊢
          exact h4
        · rw [if_neg he, if_neg he] at h4
          rw [if_pos he, if_pos he]
          exact h4
      · rw [if_neg hm] at h1
        simp only [StoreOp.run, StoreOp.spec, if_neg hm]
        rw [removeM_of_error h1]
        have hnil : L.filter (fun u => u.ptr = p) = [] := by
          rw [List.filter_eq_nil_iff]
          intro w hw
          have : w.ptr ≠ p := fun e => hm ⟨w, hw, e⟩
          simpa using this
        have hF : (fun v q => if q = p ∧ ∃ w ∈ L, w.ptr = p ∧ (mentions t w).head? = some v
            then none else F v q) = F := by
          funext v q
          rw [if_neg]
          rintro ⟨_, w, hw, e, _⟩
          exact hm ⟨w, hw, e⟩
        rw [hnil, hF]
        simp only [exists_holds_iff, List.map_nil, List.sum_nil, add_zero]
        by_cases he : holders t L = []
        · rw [if_neg (by simpa using he), if_neg (by simpa using he)]
          obtain ⟨h5, h6, h7⟩ := h.1 he
          rw [← h6, ← h7]; exact h
        · rw [if_pos he, if_pos he]; exact h

theorem mainSet_history {L : List Utxo} {st : UStore} (hc : Contents L st)
    (h : SetOK mainToken L st.utxos) (ops : List StoreOp) :
    SetOK mainToken (specHistory L ops).2 (runHistory st ops).2.utxos := by
  induction ops generalizing L st with
  | nil => exact h
  | cons o os ih =>
    have hs := contents_step hc o
    apply ih hs.2
    cases o with
    | insert u =>
      have h1 := hc.insert u
      simp only [← exists_ptr_iff] at h1
      by_cases hm : ∃ w ∈ L, w.ptr = u.ptr
      · rw [if_pos hm] at h1
        simp only [StoreOp.run, StoreOp.spec, if_pos hm]
        rw [insertM_of_error h1]; exact h
      · rw [if_neg hm] at h1
        obtain ⟨st', h2, h3⟩ := h1
        simp only [StoreOp.run, StoreOp.spec, if_neg hm]
        rw [insertM_of_insert h2]
        rw [UStore.insert_eq] at h2
        split at h2
        · cases h2
        · cases h2
          simp only
          rw [insertAsset_fold_utxos]
          exact h.add (by simp [amountOf]) (fun w hw e => hm ⟨w, hw, e⟩)
    | remove p =>
      have h1 := hc.remove p
      simp only [← exists_ptr_iff] at h1
      by_cases hm : ∃ w ∈ L, w.ptr = p
      · rw [if_pos hm] at h1
        obtain ⟨st', h2, h3⟩ := h1
        simp only [StoreOp.run, StoreOp.spec, if_pos hm]
        rw [removeM_of_remove h2]
        obtain ⟨u, hu, rfl⟩ := hm
        rw [UStore.remove_eq] at h2
        have hget : st.utxos.set.get u.ptr = some u := by
          rw [hc.set_eq, get_ptrMap hc.nodup]; exact ⟨hu, rfl⟩
        simp only [USet.removeFromMain, hget] at h2
        split at h2
        · cases h2
        · cases h2
          exact h.remove hc.nodup hu (by simp [amountOf])
      · rw [if_neg hm] at h1
        simp only [StoreOp.run, StoreOp.spec, if_neg hm]
        rw [removeM_of_error h1]; exact h

/-- Every inserted UTxO names the token at most once (for the main token: as no asset). -/
def NamedOnce (t : Token) (ops : List StoreOp) : Prop :=
  ∀ u, StoreOp.insert u ∈ ops → (mentions t u).length ≤ 1

theorem holds_iff_mentions (t : Token) (u : Utxo) : Holds t u ↔ ∃ v, v ∈ mentions t u := by
  unfold mentions Holds
  constructor
  · rintro (rfl | ⟨a, ha, he⟩)
    · exact ⟨u.value, by simp⟩
    · exact ⟨a.quantity, by
        simp only [List.mem_append, List.mem_map, List.mem_filter, decide_eq_true_eq]
        exact Or.inr ⟨a, ⟨ha, he⟩, rfl⟩⟩
  · rintro ⟨v, hv⟩
    by_cases ht : t = mainToken
    · exact Or.inl ht
    · right
      simp only [ht, if_false, List.nil_append, List.mem_map, List.mem_filter,
        decide_eq_true_eq] at hv
      obtain ⟨a, ⟨ha, he⟩, _⟩ := hv
      exact ⟨a, ha, he⟩

theorem mentions_held {t : Token} {u : Utxo} (h : (mentions t u).length ≤ 1) :
    (mentions t u).sum = held t u := by
  unfold held
  by_cases ht : t = mainToken
  · rw [if_pos ht]
    unfold mentions at *
    rw [if_pos ht] at *
    match hm : (u.assets.filter (fun a => a.fingerprint = t)).map (·.quantity) with
    | [] => rw [hm]; simp
    | _ :: _ => rw [hm] at h; simp at h
  · rw [if_neg ht]; simp [mentions, ht]

theorem once_step {t : Token} {L : List Utxo} (hL : ∀ u ∈ L, (mentions t u).length ≤ 1)
    (o : StoreOp) (ho : ∀ u, o = .insert u → (mentions t u).length ≤ 1) :
    ∀ u ∈ (o.spec L).2, (mentions t u).length ≤ 1 := by
  intro u hu
  cases o with
  | insert x =>
    simp only [StoreOp.spec] at hu
    split at hu
    · exact hL u hu
    · rcases List.mem_append.mp hu with hu | hu
      · exact hL u hu
      · rw [List.mem_singleton] at hu; subst hu; exact ho u rfl
  | remove p =>
    simp only [StoreOp.spec] at hu
    split at hu
    · exact hL u (List.mem_filter.mp hu).1
    · exact hL u hu

theorem once_history (t : Token) {L : List Utxo} (hL : ∀ u ∈ L, (mentions t u).length ≤ 1)
    (ops : List StoreOp) (hd : NamedOnce t ops) :
    ∀ u ∈ (specHistory L ops).2, (mentions t u).length ≤ 1 := by
  induction ops generalizing L with
  | nil => exact hL
  | cons o os ih =>
    exact ih (once_step hL o (fun u e => hd u (by simp [e]))) (fun u hu => hd u (by simp [hu]))

theorem surplus_once (t : Token) {L : List Utxo} (hL : ∀ u ∈ L, (mentions t u).length ≤ 1)
    (ops : List StoreOp) (hd : NamedOnce t ops) : surplus t L 0 ops = 0 := by
  induction ops generalizing L with
  | nil => rfl
  | cons o os ih =>
    have h1 := ih (once_step hL o (fun u e => hd u (by simp [e]))) (fun u hu => hd u (by simp [hu]))
    cases o with
    | insert u => exact h1
    | remove p =>
      have hz : ((L.filter (fun u => u.ptr = p)).map (fun u => (mentions t u).tail.sum)).sum = 0 := by
        apply List.sum_eq_zero
        intro x hx
        obtain ⟨u, hu, rfl⟩ := List.mem_map.mp hx
        have := hL u (List.mem_filter.mp hu).1
        match hm : mentions t u with
        | [] => rfl
        | [_] => rfl
        | _ :: _ :: _ => rw [hm] at this; simp at this
      simp only [surplus, hz, add_zero, ite_self]
      exact h1

theorem filed_once (t : Token) {L : List Utxo} {F : ℚ → Pointer → Option Utxo}
    (hL : ∀ u ∈ L, (mentions t u).length ≤ 1) (hn : (L.map (·.ptr)).Nodup)
    (hF : ∀ v p u, F v p = some u ↔ u ∈ L ∧ u.ptr = p ∧ v ∈ mentions t u)
    (ops : List StoreOp) (hd : NamedOnce t ops) :
    ∀ v p u, filed t L F ops v p = some u ↔
      u ∈ (specHistory L ops).2 ∧ u.ptr = p ∧ v ∈ mentions t u := by
  induction ops generalizing L F with
  | nil => exact hF
  | cons o os ih =>
    have hs := once_step hL o (fun u e => hd u (by simp [e]))
    have hd' : NamedOnce t os := fun u hu => hd u (by simp [hu])
    cases o with
    | insert x =>
      simp only [specHistory, filed]
      refine ih hs ?_ ?_ hd'
      · simp only [StoreOp.spec]
        split
        · exact hn
        · rename_i hm
          rw [List.map_append, List.nodup_append]
          refine ⟨hn, by simp, ?_⟩
          intro a ha b hb e
          simp at hb; subst hb
          obtain ⟨w, hw, rfl⟩ := List.mem_map.mp ha
          exact hm ⟨w, hw, e⟩
      · by_cases hm : ∃ w ∈ L, w.ptr = x.ptr
        · simp only [StoreOp.spec, if_pos hm]; exact hF
        · simp only [StoreOp.spec, if_neg hm]
          intro v p u
          rw [List.mem_append, List.mem_singleton]
          split
          · rename_i hc
            obtain ⟨rfl, hv⟩ := hc
            constructor
            · intro e; cases e; exact ⟨Or.inr rfl, rfl, hv⟩
            · rintro ⟨hu | rfl, e, _⟩
              · exact absurd ⟨u, hu, e⟩ hm
              · rfl
          · rename_i hc
            rw [hF]
            constructor
            · rintro ⟨h1, h2⟩; exact ⟨Or.inl h1, h2⟩
            · rintro ⟨h1 | rfl, h2, h3⟩
              · exact ⟨h1, h2, h3⟩
              · exact absurd ⟨h2.symm, h3⟩ hc
    | remove q =>
      simp only [specHistory, filed]
      refine ih hs ?_ ?_ hd'
      · simp only [StoreOp.spec]
        split
        · exact hn.sublist (List.filter_sublist.map _)
        · exact hn
      · have hmem : ∀ u, u ∈ (StoreOp.spec L (.remove q)).2 ↔ u ∈ L ∧ u.ptr ≠ q := by
          intro u
          simp only [StoreOp.spec]
          split
          · simp
          · rename_i hm
            exact ⟨fun hu => ⟨hu, fun e => hm ⟨u, hu, e⟩⟩, fun hu => hu.1⟩
        intro v p u
        rw [hmem]
        by_cases he : ∃ u ∈ (StoreOp.spec L (.remove q)).2, Holds t u
        · rw [if_pos he]
          split
          · rename_i hc
            obtain ⟨rfl, w, hw, e, hv⟩ := hc
            constructor
            · intro e; cases e
            · rintro ⟨⟨_, h2⟩, h3, _⟩; exact absurd h3 h2
          · rename_i hc
            rw [hF]
            constructor
            · rintro ⟨h1, h2, h3⟩
              refine ⟨⟨h1, ?_⟩, h2, h3⟩
              intro e
              refine hc ⟨h2.symm.trans e, u, h1, e, ?_⟩
              have h4 := hL u h1
              match hm : mentions t u with
              | [] => rw [hm] at h3; simp at h3
              | [w] => rw [hm] at h3; simp at h3; simp [h3]
              | _ :: _ :: _ => rw [hm] at h4; simp at h4
            · rintro ⟨⟨h1, _⟩, h2, h3⟩; exact ⟨h1, h2, h3⟩
        · rw [if_neg he]
          constructor
          · intro e; cases e
          · rintro ⟨h1, _, h3⟩
            exact absurd ⟨u, (hmem u).mpr h1, (holds_iff_mentions t u).mpr ⟨v, h3⟩⟩ he

/-! ## C34 contents -/

/-- For every history over any UTxOs (repeated asset identifiers included) every call answers
what the specification says, so in particular it never panics, and a rejected call changes nothing; the store then
shows exactly the inserted and not removed UTxOs. -/
theorem C34_contents (ops : List StoreOp) :
    let st := (runHistory UStore.new ops).2
    let L := (specHistory [] ops).2
    (runHistory UStore.new ops).1 = (specHistory [] ops).1 ∧
    (L.map (·.ptr)).Nodup ∧
    st.len = L.length ∧
    st.isEmpty = L.isEmpty ∧
    (∀ p, st.contains p = true ↔ ∃ u ∈ L, u.ptr = p) ∧
    (∀ p u, st.get p = some u ↔ u ∈ L ∧ u.ptr = p) ∧
    (st.iter).Perm (L.map (fun u => (u.ptr, u))) := by
  intro st L
  obtain ⟨h1, h2⟩ := contents_history Contents.new ops
  have hset : st.utxos.set = ptrMap L := h2.set_eq
  refine ⟨h1, h2.nodup, ?_, ?_, ?_, ?_, ?_⟩
  · simp [UStore.len, USet.len, hset, ptrMap]
  · simp only [UStore.isEmpty, hset, ptrMap, List.length_map]
    cases L <;> simp
  · intro p
    simp only [UStore.contains, AMap.contains, hset]
    rw [← not_iff_not]
    simp [get_ptrMap_none]
  · intro p u
    simp only [UStore.get, hset]
    exact get_ptrMap h2.nodup
  · simp [UStore.iter, hset, ptrMap]

/-- Rejected calls leave the very same state behind. -/
theorem C34_rejected_unchanged (st : UStore) (o : StoreOp) (e : StoreErr)
    (h : (o.run st).1 = .error e) : (o.run st).2 = st := by
  cases o with
  | insert u => exact insertM_error h
  | remove p => exact removeM_error h

/-- The specification is the usual one: an inserted UTxO stays until it is removed. -/
theorem C34_spec_reading (L : List Utxo) (u w : Utxo) (p : Pointer) :
    (w ∈ (StoreOp.spec L (.insert u)).2 ↔ w ∈ L ∨ (w = u ∧ ∀ x ∈ L, x.ptr ≠ u.ptr)) ∧
    (w ∈ (StoreOp.spec L (.remove p)).2 ↔ w ∈ L ∧ w.ptr ≠ p) := by
  constructor
  · simp only [StoreOp.spec]
    split
    · rename_i h
      obtain ⟨x, hx, he⟩ := h
      constructor
      · exact Or.inl
      · rintro (h | ⟨_, h⟩)
        · exact h
        · exact absurd he (h x hx)
    · rename_i h
      push Not at h
      simp only [List.mem_append, List.mem_singleton]
      constructor
      · rintro (h' | h')
        · exact Or.inl h'
        · exact Or.inr ⟨h', h⟩
      · rintro (h' | h')
        · exact Or.inl h'
        · exact Or.inr h'.1
  · simp only [StoreOp.spec]
    split
    · simp
    · rename_i h
      push Not at h
      exact ⟨fun hw => ⟨hw, h w hw⟩, fun hw => hw.1⟩

/-- A history with a rejected insertion, a removal and a rejected removal. -/
example : (specHistory [] [.insert ⟨1, 5, [⟨7, 2, 0, 0⟩], 0⟩, .insert ⟨1, 6, [], 0⟩,
      .insert ⟨2, 4, [], 0⟩, .remove 1, .remove 1]).1 =
    [.ok (), .error .alreadyInserted, .ok (), .ok (), .error .notFound] := by
  simp [specHistory, StoreOp.spec]

/-! ## C35 balances -/

/-- Whatever the UTxOs name: the balance of the store, and count, listing and presence of every
token, are those recomputed from the contents. -/
theorem C35_listing (ops : List StoreOp) (t : Token) :
    let st := (runHistory UStore.new ops).2
    let L := (specHistory [] ops).2
    st.balance = (L.map (fun u => u.value)).sum ∧
    (st.iterToken t).Perm ((L.filter (Holds t)).map (fun u => (u.ptr, u))) ∧
    st.numberUtxosForToken t = (L.filter (Holds t)).length ∧
    (st.containsToken t = true ↔ t = mainToken ∨ ∃ u ∈ L, Holds t u) := by
  intro st L
  have h : TokenX t L _ _ st := tokenX_history t Contents.new (TokenX.new t) ops
  have hm : SetOK mainToken L st.utxos := mainSet_history Contents.new (SetOK.empty _ _ rfl) ops
  have hid : st.utxos.tokenId = mainToken := mainId_history rfl ops
  refine ⟨?_, ?_, ?_, ?_⟩
  · rw [show st.balance = st.utxos.balance from rfl, hm.balance_eq]
    simp [amountOf]
  · rw [← holders_eq_filter]
    unfold UStore.iterToken
    by_cases he : holders t L = []
    · rw [(h.1 he).1, he]; simp
    · obtain ⟨s, hs, hok⟩ := h.2 he
      rw [hs]; simp only [hok.set_eq]; exact List.Perm.refl _
  · rw [← holders_eq_filter]
    unfold UStore.numberUtxosForToken
    by_cases he : holders t L = []
    · rw [(h.1 he).1, he]; simp
    · obtain ⟨s, hs, hok⟩ := h.2 he
      simp [hs, USet.len, hok.set_eq, ptrMap]
  · unfold UStore.containsToken AMap.contains
    rw [hid, exists_holds_iff]
    simp only [Bool.or_eq_true, beq_iff_eq]
    apply or_congr Iff.rfl
    by_cases he : holders t L = []
    · rw [(h.1 he).1]; simp [he]
    · obtain ⟨s, hs, hok⟩ := h.2 he
      simp [hs, he]

/-- Whatever the UTxOs name: the reported balance of a token is what the stored UTxOs name of it,
plus the surplus left behind by removed ones. -/
theorem C35_balance_exact (ops : List StoreOp) (t : Token) :
    let st := (runHistory UStore.new ops).2
    let L := (specHistory [] ops).2
    st.balanceOf t = if ∃ u ∈ L, Holds t u then
      some ((L.map (fun u => (mentions t u).sum)).sum + surplus t [] 0 ops) else none := by
  intro st L
  have h : TokenX t L _ _ st := tokenX_history t Contents.new (TokenX.new t) ops
  by_cases he : holders t L = []
  · rw [if_neg (fun e => (exists_holds_iff t L).mp e he)]
    simp [UStore.balanceOf, (h.1 he).1]
  · rw [if_pos ((exists_holds_iff t L).mpr he)]
    obtain ⟨s, hs, hok⟩ := h.2 he
    simp only [UStore.balanceOf, hs, Option.map_some, hok.balance_eq]
    rfl

/-- If every inserted UTxO names the token at most once, then after every history its balance is the
sum of its amounts over the contents. -/
theorem C35_balances_partial (ops : List StoreOp) (t : Token) (hd : NamedOnce t ops) :
    let st := (runHistory UStore.new ops).2
    let L := (specHistory [] ops).2
    st.balanceOf t = if ∃ u ∈ L, Holds t u then some (L.map (held t)).sum else none := by
  intro st L
  have h := C35_balance_exact ops t
  have hL : ∀ u ∈ L, (mentions t u).length ≤ 1 := once_history t (by simp) ops hd
  have hs : surplus t [] 0 ops = 0 := surplus_once t (by simp) ops hd
  have hm : L.map (fun u => (mentions t u).sum) = L.map (held t) := by
    apply List.map_congr_left
    intro u hu
    exact mentions_held (hL u hu)
  simp only at h
  rw [hs, add_zero, hm] at h
  exact h

/-- Other tokens may be named as often as one likes. -/
example : NamedOnce 2 [.insert ⟨1, 10, [⟨1, 5, 0, 0⟩, ⟨2, 7, 0, 0⟩, ⟨1, 5, 0, 0⟩], 0⟩,
    .insert ⟨2, 10, [⟨1, 3, 0, 0⟩], 0⟩, .remove 1] := by
  intro u hu
  simp at hu
  rcases hu with rfl | rfl <;> simp [mentions, mainToken]

/-- A UTxO listing asset 1 twice, and one listing it once. -/
def dupOps : List StoreOp :=
  [.insert ⟨1, 10, [⟨1, 5, 0, 0⟩, ⟨1, 7, 0, 0⟩], 0⟩, .insert ⟨2, 10, [⟨1, 3, 0, 0⟩], 0⟩, .remove 1]

/-- Without the condition the statement is false: once a UTxO naming an asset twice is removed, the
balance of that asset stays too high. The store holds 3 and reports 10. -/
theorem C35_duplicate_assets_false :
    ((specHistory [] dupOps).2.map (held 1)).sum = 3 ∧
    (runHistory UStore.new dupOps).2.balanceOf 1 = some 10 := by
  constructor
  · simp [dupOps, specHistory, StoreOp.spec, held, mainToken]
  · norm_num [dupOps, runHistory, StoreOp.run, UStore.insertM, UStore.new, UStore.insertAsset,
      UStore.removeM, USet.removeFromMain, USet.removeFromAsset, UStore.removeTokens,
      UStore.removeToken, USet.addValue, USet.bucketAdd, USet.bucketRemove, USet.finishRemove,
      AMap.contains, AMap.get, AMap.insert, AMap.erase, UStore.balanceOf, mainToken]

/-- A history that leaves a surplus: UTxO 1 names asset 1 with 5 and 7, UTxO 2 with 3, and UTxO 1 is
removed. -/
example : surplus 1 [] 0 dupOps = 7 := by
  norm_num [dupOps, surplus, StoreOp.spec, mentions, Holds, mainToken]

/-! ## C36 ordered views -/

/-- Whatever the UTxOs name: the ordered listings of a token show exactly the filings, each once, by
ascending and by descending amount. -/
theorem C36_ordered_exact (ops : List StoreOp) (t : Token) :
    let st := (runHistory UStore.new ops).2
    let F := filed t [] (fun _ _ => none) ops
    (∃ K : List (ℚ × Utxo), st.iterTokenOrdered t = K.map (·.2) ∧
      K.Pairwise (fun a b => a.1 ≤ b.1) ∧ K.Nodup ∧ ∀ v u, (v, u) ∈ K ↔ F v u.ptr = some u) ∧
    (∃ K : List (ℚ × Utxo), st.iterTokenOrderedRev t = K.map (·.2) ∧
      K.Pairwise (fun a b => b.1 ≤ a.1) ∧ K.Nodup ∧ ∀ v u, (v, u) ∈ K ↔ F v u.ptr = some u) ∧
    st.iterOrderedByMain.Perm (specHistory [] ops).2 ∧
    st.iterOrderedByMain.Pairwise (fun a b => a.value ≤ b.value) := by
  intro st F
  have h : TokenX t (specHistory [] ops).2 _ F st := tokenX_history t Contents.new (TokenX.new t) ops
  have hm : SetOK mainToken (specHistory [] ops).2 st.utxos :=
    mainSet_history Contents.new (SetOK.empty _ _ rfl) ops
  have hn := (contents_history Contents.new ops).2.nodup
  refine ⟨?_, ?_, ?_, ?_⟩
  · unfold UStore.iterTokenOrdered
    by_cases he : holders t (specHistory [] ops).2 = []
    · rw [(h.1 he).1, (h.1 he).2.2]
      exact ⟨[], rfl, by simp, by simp, by simp⟩
    · obtain ⟨s, hs, hok⟩ := h.2 he
      rw [hs]; exact hok.ordered
  · unfold UStore.iterTokenOrderedRev
    by_cases he : holders t (specHistory [] ops).2 = []
    · rw [(h.1 he).1, (h.1 he).2.2]
      exact ⟨[], rfl, by simp, by simp, by simp⟩
    · obtain ⟨s, hs, hok⟩ := h.2 he
      rw [hs]; exact hok.orderedRev
  · have := hm.ordered_perm hn
    rw [holders_eq_filter] at this
    have hall : (specHistory [] ops).2.filter (Holds mainToken) = (specHistory [] ops).2 := by
      rw [List.filter_eq_self]; intro a _; simp [Holds]
    rwa [hall] at this
  · have := hm.ordered_sorted
    simpa [amountOf, UStore.iterOrderedByMain] using this

/-- The filings contain every stored UTxO under every amount it names. -/
theorem filed_complete (t : Token) {L : List Utxo} {F : ℚ → Pointer → Option Utxo}
    (hF : ∀ u ∈ L, ∀ v ∈ mentions t u, F v u.ptr = some u) (ops : List StoreOp) :
    ∀ u ∈ (specHistory L ops).2, ∀ v ∈ mentions t u, filed t L F ops v u.ptr = some u := by
  induction ops generalizing L F with
  | nil => exact hF
  | cons o os ih =>
    cases o with
    | insert x =>
      simp only [specHistory, filed]
      apply ih
      by_cases hm : ∃ w ∈ L, w.ptr = x.ptr
      · simp only [StoreOp.spec, if_pos hm]; exact hF
      · simp only [StoreOp.spec, if_neg hm]
        intro u hu v hv
        rcases List.mem_append.mp hu with hu | hu
        · rw [if_neg (fun e => hm ⟨u, hu, e.1⟩)]
          exact hF u hu v hv
        · rw [List.mem_singleton] at hu
          subst hu
          rw [if_pos ⟨rfl, hv⟩]
    | remove p =>
      simp only [specHistory, filed]
      apply ih
      intro u hu v hv
      have hh : Holds t u := by
        unfold mentions at hv
        unfold Holds
        by_cases ht : t = mainToken
        · exact Or.inl ht
        · right
          simp only [ht, if_false, List.nil_append, List.mem_map, List.mem_filter,
            decide_eq_true_eq] at hv
          obtain ⟨a, ⟨ha, he⟩, _⟩ := hv
          exact ⟨a, ha, he⟩
      rw [if_pos ⟨u, hu, hh⟩]
      have hu' : u ∈ L ∧ (u.ptr = p → ¬ ∃ w ∈ L, w.ptr = p) := by
        simp only [StoreOp.spec] at hu
        split at hu
        · simp only [List.mem_filter, decide_eq_true_eq] at hu
          exact ⟨hu.1, fun e => absurd e hu.2⟩
        · rename_i hm
          exact ⟨hu, fun _ => hm⟩
      rw [if_neg]
      · exact hF u hu'.1 v hv
      · rintro ⟨e, w, hw, e', _⟩
        exact hu'.2 e ⟨w, hw, e'⟩

/-- Whatever the UTxOs name: no stored UTxO with the token is missing from the ordered listings. -/
theorem C36_complete (ops : List StoreOp) (t : Token) (u : Utxo)
    (hu : u ∈ (specHistory [] ops).2) (hh : Holds t u) :
    u ∈ (runHistory UStore.new ops).2.iterTokenOrdered t ∧
    u ∈ (runHistory UStore.new ops).2.iterTokenOrderedRev t := by
  obtain ⟨⟨K, h1, _, _, h2⟩, ⟨K', h3, _, _, h4⟩, _⟩ := C36_ordered_exact ops t
  have hv : ∃ v, v ∈ mentions t u := by
    unfold mentions
    rcases hh with rfl | ⟨a, ha, he⟩
    · exact ⟨u.value, by simp⟩
    · exact ⟨a.quantity, by
        simp only [List.mem_append, List.mem_map, List.mem_filter, decide_eq_true_eq]
        exact Or.inr ⟨a, ⟨ha, he⟩, rfl⟩⟩
  obtain ⟨v, hv⟩ := hv
  have hf := filed_complete t (L := []) (F := fun _ _ => none) (by simp) ops u hu v hv
  exact ⟨by rw [h1]; exact List.mem_map.mpr ⟨_, (h2 v u).mpr hf, rfl⟩,
    by rw [h3]; exact List.mem_map.mpr ⟨_, (h4 v u).mpr hf, rfl⟩⟩

/-- If every inserted UTxO names the token at most once, the ordered listings contain each stored
UTxO holding the token exactly once; the forward one is sorted by ascending amount and the reverse
one by descending amount. -/
theorem C36_ordered_partial (ops : List StoreOp) (t : Token) (hd : NamedOnce t ops) :
    let st := (runHistory UStore.new ops).2
    let L := (specHistory [] ops).2
    (st.iterTokenOrdered t).Perm (L.filter (Holds t)) ∧
    (st.iterTokenOrdered t).Pairwise (fun a b => held t a ≤ held t b) ∧
    (st.iterTokenOrderedRev t).Perm (L.filter (Holds t)) ∧
    (st.iterTokenOrderedRev t).Pairwise (fun a b => held t b ≤ held t a) := by
  intro st L
  obtain ⟨⟨K, h1, h2, h3, h4⟩, ⟨K', h1', h2', h3', h4'⟩, _⟩ := C36_ordered_exact ops t
  have hn : (L.map (·.ptr)).Nodup := (contents_history Contents.new ops).2.nodup
  have hL : ∀ u ∈ L, (mentions t u).length ≤ 1 := once_history t (by simp) ops hd
  have hF := filed_once t (L := []) (F := fun _ _ => none) (by simp) (by simp) (by simp) ops hd
  have key : ∀ K : List (ℚ × Utxo), K.Nodup →
      (∀ v u, (v, u) ∈ K ↔ filed t [] (fun _ _ => none) ops v u.ptr = some u) →
      (K.map (·.2)).Perm (L.filter (Holds t)) ∧ ∀ x ∈ K, x.1 = held t x.2 := by
    intro K hK hmem
    have hval : ∀ x ∈ K, x.2 ∈ L ∧ mentions t x.2 = [x.1] := by
      rintro ⟨v, u⟩ hx
      have h5 := (hF v u.ptr u).mp ((hmem v u).mp hx)
      refine ⟨h5.1, ?_⟩
      have h6 := hL u h5.1
      have h7 := h5.2.2
      match hm : mentions t u with
      | [] => rw [hm] at h7; simp at h7
      | [w] => rw [hm] at h7; simp at h7; rw [h7]
      | _ :: _ :: _ => rw [hm] at h6; simp at h6
    have hheld : ∀ x ∈ K, x.1 = held t x.2 := by
      intro x hx
      rw [← mentions_held (hL _ (hval x hx).1), (hval x hx).2]; simp
    refine ⟨?_, hheld⟩
    rw [List.perm_ext_iff_of_nodup]
    · intro u
      simp only [List.mem_map, List.mem_filter, decide_eq_true_eq]
      constructor
      · rintro ⟨x, hx, rfl⟩
        refine ⟨(hval x hx).1, (holds_iff_mentions t x.2).mpr ⟨x.1, ?_⟩⟩
        rw [(hval x hx).2]; simp
      · rintro ⟨hu, hh⟩
        obtain ⟨v, hv⟩ := (holds_iff_mentions t u).mp hh
        exact ⟨(v, u), (hmem v u).mpr ((hF v u.ptr u).mpr ⟨hu, rfl, hv⟩), rfl⟩
    · rw [List.nodup_map_iff_inj_on hK]
      intro x hx y hy e
      exact Prod.ext (by rw [hheld x hx, hheld y hy, e]) e
    · exact (List.Nodup.of_map _ hn).filter _
  obtain ⟨k1, k2⟩ := key K h3 h4
  obtain ⟨k3, k4⟩ := key K' h3' h4'
  refine ⟨?_, ?_, ?_, ?_⟩
  · rw [h1]; exact k1
  · rw [h1, List.pairwise_map]
    exact h2.imp_of_mem (fun ha hb hab => by rw [← k2 _ ha, ← k2 _ hb]; exact hab)
  · rw [h1']; exact k3
  · rw [h1', List.pairwise_map]
    exact h2'.imp_of_mem (fun ha hb hab => by rw [← k4 _ ha, ← k4 _ hb]; exact hab)

/-- Without the condition the ordered listing keeps showing a removed UTxO. -/
theorem C36_duplicate_assets_false :
    (specHistory [] dupOps).2.map (·.ptr) = [2] ∧
    ((runHistory UStore.new dupOps).2.iterTokenOrdered 1).map (·.ptr) = [2, 1] := by
  constructor
  · simp [dupOps, specHistory, StoreOp.spec]
  · norm_num [dupOps, runHistory, StoreOp.run, UStore.insertM, UStore.new, UStore.insertAsset,
      UStore.removeM, USet.removeFromMain, USet.removeFromAsset, UStore.removeTokens,
      UStore.removeToken, USet.addValue, USet.bucketAdd, USet.bucketRemove, USet.finishRemove,
      AMap.contains, AMap.get, AMap.insert, AMap.erase, UStore.iterTokenOrdered, mainToken,
      USet.orderedUtxos]

/-- The reverse listing is not literally the reversed forward listing when amounts tie: UTxOs of
equal amount keep their relative order. -/
theorem C36_reverse_ties_false :
    let st := (runHistory UStore.new [.insert ⟨1, 5, [], 0⟩, .insert ⟨2, 5, [], 0⟩]).2
    (st.iterTokenOrdered mainToken).map (·.ptr) = [1, 2] ∧
    (st.iterTokenOrderedRev mainToken).map (·.ptr) = [1, 2] := by
  norm_num [runHistory, StoreOp.run, UStore.insertM, UStore.new, USet.addValue, USet.bucketAdd,
      AMap.contains, AMap.get, AMap.insert, UStore.iterTokenOrdered, UStore.iterTokenOrderedRev,
      mainToken, USet.orderedUtxos, USet.orderedUtxosRev]

/-! ## C37 snapshots -/

/-- A program's frozen snapshots and mutable stores. -/
structure World where
  frozen : List UStore
  thawed : List UStore

/-- Calls of a program on its handles. -/
inductive WorldOp where
  /-- `frozen[i].thaw()`, kept as a new mutable handle. -/
  | thaw (i : Nat)
  /-- A call on mutable handle `j`. -/
  | call (j : Nat) (o : StoreOp)
  /-- `thawed[j].freeze()`: consumes the mutable handle. -/
  | freeze (j : Nat)

/-- `thaw` 185-191 and `freeze` 360-366 copy or move the three fields. -/
def WorldOp.run (w : World) : WorldOp → World
  | .thaw i =>
    match w.frozen[i]? with
    | some s => { w with thawed := w.thawed ++ [s] }
    | none => w
  | .call j o =>
    match w.thawed[j]? with
    | some s => { w with thawed := w.thawed.set j (o.run s).2 }
    | none => w
  | .freeze j =>
    match w.thawed[j]? with
    | some s => { frozen := w.frozen ++ [s], thawed := w.thawed.eraseIdx j }
    | none => w

/-- The same program on plain lists of UTxOs. -/
structure SpecWorld where
  frozen : List (List Utxo)
  thawed : List (List Utxo)

/-- Specification: a snapshot is a value, a mutable store a private copy. -/
def WorldOp.spec (w : SpecWorld) : WorldOp → SpecWorld
  | .thaw i =>
    match w.frozen[i]? with
    | some s => { w with thawed := w.thawed ++ [s] }
    | none => w
  | .call j o =>
    match w.thawed[j]? with
    | some s => { w with thawed := w.thawed.set j (o.spec s).2 }
    | none => w
  | .freeze j =>
    match w.thawed[j]? with
    | some s => { frozen := w.frozen ++ [s], thawed := w.thawed.eraseIdx j }
    | none => w

theorem forall₂_append_one {α β : Type} {R : α → β → Prop} {l : List α} {m : List β} {a : α} {b : β}
    (h : List.Forall₂ R l m) (hab : R a b) : List.Forall₂ R (l ++ [a]) (m ++ [b]) := by
  induction h with
  | nil => exact .cons hab .nil
  | cons h1 _ ih => exact .cons h1 ih

theorem forall₂_get {α β : Type} {R : α → β → Prop} {l : List α} {m : List β}
    (h : List.Forall₂ R l m) (i : Nat) :
    (l[i]? = none ∧ m[i]? = none) ∨ ∃ a b, l[i]? = some a ∧ m[i]? = some b ∧ R a b := by
  induction h generalizing i with
  | nil => simp
  | cons h1 _ ih =>
    cases i with
    | zero => right; exact ⟨_, _, rfl, rfl, h1⟩
    | succ i => simpa using ih i

theorem forall₂_set {α β : Type} {R : α → β → Prop} {l : List α} {m : List β} {a : α} {b : β}
    (h : List.Forall₂ R l m) (hab : R a b) (i : Nat) : List.Forall₂ R (l.set i a) (m.set i b) := by
  induction h generalizing i with
  | nil => simp
  | cons h1 h2 ih =>
    cases i with
    | zero => exact .cons hab h2
    | succ i => exact .cons h1 (ih i)

theorem forall₂_eraseIdx {α β : Type} {R : α → β → Prop} {l : List α} {m : List β}
    (h : List.Forall₂ R l m) (i : Nat) : List.Forall₂ R (l.eraseIdx i) (m.eraseIdx i) := by
  induction h generalizing i with
  | nil => simp
  | cons h1 h2 ih =>
    cases i with
    | zero => exact h2
    | succ i => exact .cons h1 (ih i)

/-- The world of the code shows the same contents as the specified world. -/
def WorldOK (s : SpecWorld) (w : World) : Prop :=
  List.Forall₂ Contents s.frozen w.frozen ∧ List.Forall₂ Contents s.thawed w.thawed

theorem worldOK_step {s : SpecWorld} {w : World} (h : WorldOK s w) (o : WorldOp) :
    WorldOK (o.spec s) (o.run w) := by
  obtain ⟨hf, ht⟩ := h
  cases o with
  | thaw i =>
    simp only [WorldOp.spec, WorldOp.run]
    rcases forall₂_get hf i with ⟨h1, h2⟩ | ⟨a, b, h1, h2, hab⟩
    · rw [h1, h2]; exact ⟨hf, ht⟩
    · rw [h1, h2]; exact ⟨hf, forall₂_append_one ht hab⟩
  | call j o =>
    simp only [WorldOp.spec, WorldOp.run]
    rcases forall₂_get ht j with ⟨h1, h2⟩ | ⟨a, b, h1, h2, hab⟩
    · rw [h1, h2]; exact ⟨hf, ht⟩
    · rw [h1, h2]; exact ⟨hf, forall₂_set ht (contents_step hab o).2 j⟩
  | freeze j =>
    simp only [WorldOp.spec, WorldOp.run]
    rcases forall₂_get ht j with ⟨h1, h2⟩ | ⟨a, b, h1, h2, hab⟩
    · rw [h1, h2]; exact ⟨hf, ht⟩
    · rw [h1, h2]; exact ⟨forall₂_append_one hf hab, forall₂_eraseIdx ht j⟩

/-- Snapshot `i`, taken at any point of any program, still shows the same UTxOs (same length, same
answer to every lookup) after every continuation, and the whole program sees the contents of the
specified world in which snapshots are values. -/
theorem C37_isolated (before after : List WorldOp) (i : Nat) (snap : UStore)
    (hs : (before.foldl WorldOp.run ⟨[UStore.new], []⟩).frozen[i]? = some snap) :
    ∃ L, (before.foldl WorldOp.spec ⟨[[]], []⟩).frozen[i]? = some L ∧
      ∃ snap', ((before ++ after).foldl WorldOp.run ⟨[UStore.new], []⟩).frozen[i]? = some snap' ∧
        snap'.len = L.length ∧ (∀ p u, snap'.get p = some u ↔ u ∈ L ∧ u.ptr = p) ∧
        snap' = snap := by
  have hall : ∀ (ops : List WorldOp) s w, WorldOK s w → WorldOK (ops.foldl WorldOp.spec s) (ops.foldl WorldOp.run w) := by
    intro ops
    induction ops with
    | nil => intro s w h; exact h
    | cons o os ih => intro s w h; exact ih _ _ (worldOK_step h o)
  have h0 : WorldOK ⟨[[]], []⟩ ⟨[UStore.new], []⟩ := ⟨.cons Contents.new .nil, .nil⟩
  have hb := hall before _ _ h0
  have hkeep : ∀ (ops : List WorldOp) (w : World), w.frozen[i]? = some snap →
      (ops.foldl WorldOp.run w).frozen[i]? = some snap := by
    intro ops
    induction ops with
    | nil => intro w h; exact h
    | cons o os ih =>
      intro w h
      apply ih
      cases o with
      | thaw k => simp only [WorldOp.run]; split <;> exact h
      | call k o => simp only [WorldOp.run]; split <;> exact h
      | freeze k =>
        simp only [WorldOp.run]; split
        · simp only
          rw [List.getElem?_append_left]
          · exact h
          · exact (List.getElem?_eq_some_iff.mp h).1
        · exact h
  rcases forall₂_get hb.1 i with ⟨_, h2⟩ | ⟨L, b, h1, h2, hab⟩
  · rw [h2] at hs; cases hs
  · have hbs : b = snap := by rw [h2] at hs; exact Option.some.inj hs
    rw [← hbs] at hkeep ⊢
    refine ⟨L, h1, b, ?_, ?_, ?_, rfl⟩
    · rw [List.foldl_append]; exact hkeep after _ h2
    · simp [UStore.len, USet.len, hab.set_eq, ptrMap]
    · intro p u; simp only [UStore.get, hab.set_eq]; exact get_ptrMap hab.nodup

example : (([WorldOp.thaw 0, .call 0 (.insert ⟨1, 5, [], 0⟩), .freeze 0] ++
    [WorldOp.thaw 1, .call 0 (.remove 1), .freeze 0]).foldl WorldOp.run
      ⟨[UStore.new], []⟩).frozen.map (·.len) = [0, 1, 0] := by
  norm_num [WorldOp.run, UStore.new, StoreOp.run, UStore.insertM, UStore.removeM, UStore.len,
    USet.len, AMap.contains, AMap.get, AMap.insert, USet.addValue, USet.removeFromMain,
    UStore.removeTokens, UStore.removeToken, USet.removeFromAsset, mainToken, AMap.erase,
    USet.finishRemove, USet.bucketRemove, USet.bucketAdd]

/-! ## C56 asset names -/

/-- Assets of the accepted insertions of a history, in order. -/
def insertedAssets (L : List Utxo) : List StoreOp → List Asset
  | [] => []
  | .insert u :: os =>
    (if ∃ w ∈ L, w.ptr = u.ptr then [] else u.assets) ++
      insertedAssets (StoreOp.spec L (.insert u)).2 os
  | .remove p :: os => insertedAssets (StoreOp.spec L (.remove p)).2 os

theorem dictionary_fold (u : Utxo) (as : List Asset) (st : UStore) (t : Token) :
    (as.foldl (UStore.insertAsset u) st).dictionary.get t =
      (st.dictionary.get t).or ((as.find? (fun a => a.fingerprint = t)).map (fun a => (a.policy, a.name))) := by
  induction as generalizing st with
  | nil => simp
  | cons a as ih =>
    rw [List.foldl_cons, ih]
    simp only [UStore.insertAsset]
    by_cases ha : a.fingerprint = t
    · rw [List.find?_cons_of_pos (by simpa using ha)]
      subst ha
      cases hg : AMap.get st.dictionary a.fingerprint with
      | none => simp [AMap.contains, hg, AMap.get_insert]
      | some v => simp [AMap.contains, hg]
    · rw [List.find?_cons_of_neg (by simpa using ha)]
      congr 1
      split
      · rfl
      · rw [AMap.get_insert, if_neg ha]

theorem dictionary_history {L : List Utxo} {st : UStore} (h : Contents L st) (ops : List StoreOp)
    (t : Token) :
    (runHistory st ops).2.dictionary.get t =
      (st.dictionary.get t).or
        (((insertedAssets L ops).find? (fun a => a.fingerprint = t)).map (fun a => (a.policy, a.name))) := by
  induction ops generalizing L st with
  | nil => simp [runHistory, insertedAssets]
  | cons o os ih =>
    have hs := contents_step h o
    simp only [runHistory]
    rw [ih hs.2]
    cases o with
    | insert u =>
      simp only [insertedAssets, StoreOp.run]
      have h1 := h.insert u
      simp only [← exists_ptr_iff] at h1
      split at h1
      · rename_i hm
        rw [insertM_of_error h1, if_pos hm]; simp
      · rename_i hm
        obtain ⟨st', h2, h3⟩ := h1
        rw [insertM_of_insert h2, if_neg hm]
        rw [UStore.insert_eq] at h2
        split at h2
        · cases h2
        · cases h2
          simp only
          rw [dictionary_fold, List.find?_append, Option.or_assoc]
          congr 1
          cases List.find? (fun a => decide (a.fingerprint = t)) u.assets <;> simp
    | remove p =>
      simp only [insertedAssets, StoreOp.run]
      congr 1
      unfold UStore.removeM USet.removeFromMain
      cases hg : st.utxos.set.get p with
      | none => simp
      | some u =>
        simp only
        cases UStore.removeTokens p st.byPolicy (u.assets.map (·.fingerprint) ++ [mainToken]) <;> simp

/-- The policy and name reported for a token are those of the first accepted UTxO asset with
that identifier, forever; a token never seen has none. -/
theorem C56_asset_names (ops : List StoreOp) (t : Token) :
    (runHistory UStore.new ops).2.getAssetIds t =
      ((insertedAssets [] ops).find? (fun a => a.fingerprint = t)).map (fun a => (a.policy, a.name)) := by
  unfold UStore.getAssetIds
  rw [dictionary_history Contents.new ops t]
  simp [UStore.new]

example : (insertedAssets [] [.insert ⟨1, 5, [⟨7, 2, 10, 11⟩], 0⟩, .insert ⟨1, 5, [⟨8, 2, 0, 0⟩], 0⟩,
    .remove 1, .insert ⟨2, 5, [⟨7, 2, 20, 21⟩], 0⟩]).map (·.policy) = [10, 20] := by
  simp [insertedAssets, StoreOp.spec]

end Verif.Props
