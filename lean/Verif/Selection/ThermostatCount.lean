import Verif.Selection.ThermostatRun

/-!
# The estimator counts the parts of the transaction

Every input selected and every change made is added to the estimator once.
-/

namespace Verif.Selection.Thermostat

open Verif Verif.Core

variable {σ : Type} {E : Estimator σ} {W : World} {req : Request}

/-- `s` is reached from `s0` by adding this many inputs and outputs. -/
inductive Adds (E : Estimator σ) (s0 : σ) : σ → Nat → Nat → Prop
  | refl : Adds E s0 s0 0 0
  | addIn {s s' : σ} {u : Utxo} {i o : Nat} : Adds E s0 s i o → E.addIn s u = .ok s' → Adds E s0 s' (i + 1) o
  | addOut {s s' : σ} {x : Output} {i o : Nat} : Adds E s0 s i o → E.addOut s x = .ok s' → Adds E s0 s' i (o + 1)

/-- The state of the estimator has counted the selected inputs and the changes. -/
def Counted (E : Estimator σ) (s0 : σ) (s : TS σ) : Prop :=
  Adds E s0 s.est s.selected.length (s.changes.length + s.extra.length)

theorem length_insert {K V : Type} [DecidableEq K] (m : AMap K V) (k : K) (v : V) :
    (m.insert k v).length = if (m.get k).isSome then m.length else m.length + 1 := by
  induction m with
  | nil => rfl
  | cons kv m ih =>
    obtain ⟨k', w⟩ := kv
    simp only [AMap.insert, AMap.get_cons]
    by_cases h : k' = k
    · simp [h]
    · simp only [h, if_false, List.length_cons, ih]
      split <;> rfl

theorem Takes.counted {T : Token → Prop} {s0 : σ} {s s' : TS σ} {st st' : UStore} (h : Takes E W T s st s' st')
    (hc : Counted E s0 s) : Counted E s0 s' := by
  induction h with
  | refl => exact hc
  | head h _ ih =>
    apply ih
    cases h with
    | take ht hca ha hr =>
      unfold Counted at *
      simp only [addInput, List.length_append, List.length_singleton]
      exact .addIn hc ha
    | lost ht hca ha hr =>
      unfold Counted at *
      simp only [addInput, List.length_append, List.length_singleton]
      exact .addIn hc ha

/-- What a change that is opened does to the estimator. -/
theorem openChange_est (hmv : ∀ s o v s', E.minValueOut s o = .ok (v, s') → s' = s) {t : Token} {addr : Nat} {w : ℚ}
    {s s1 : TS σ} {o : Output} (h : openChange E t addr w s = .ok (s1, o)) :
    ((s.changes.get t).isSome ∧ s1.est = s.est) ∨ (s.changes.get t = none ∧ E.addOut s.est o = .ok s1.est) := by
  unfold openChange at h
  cases hg : s.changes.get t with
  | some o0 =>
    simp only [hg] at h
    cases h
    exact Or.inl ⟨rfl, rfl⟩
  | none =>
    simp only [hg, bind_ok] at h
    obtain ⟨⟨need, est1⟩, hv, fee, _, est2, hao, h⟩ := h
    have := hmv _ _ _ _ hv
    subst this
    cases h
    exact Or.inr ⟨rfl, hao⟩

theorem balanceExcessOf_counted (hmv : ∀ s o v s', E.minValueOut s o = .ok (v, s') → s' = s) {s0 : σ} {st : UStore}
    {t : Token} {s s' : TS σ} (h : balanceExcessOf E W req st t s = .ok s') (hc : Counted E s0 s) :
    Counted E s0 s' := by
  rcases balanceExcessOf_ok h with ⟨rfl, _⟩ | ⟨x, addr, b, s1, o, o1, _, _, _, h2, _, rfl⟩
  · exact hc
  · obtain ⟨k1, k2, k3, _⟩ := openChange_keeps h2
    unfold Counted at *
    simp only [k1, k2, k3, length_insert]
    rcases openChange_est hmv h2 with ⟨hs, he⟩ | ⟨hn, he⟩
    · rw [if_pos hs, he]; exact hc
    · rw [if_neg (by rw [hn]; simp), Nat.add_right_comm]
      exact .addOut hc he

theorem balanceExcess_counted (hmv : ∀ s o v s', E.minValueOut s o = .ok (v, s') → s' = s) {s0 : σ}
    {s s' : TS σ} (h : balanceExcess E W req s = .ok s') (hc : Counted E s0 s) : Counted E s0 s' := by
  obtain ⟨b, hb, ⟨rfl, _⟩ | ⟨x, addr, _, _, ⟨o, ho, rfl⟩ |
    ⟨hg, need, est, hv, rfl | ⟨fee, est', _, _, hao, rfl⟩⟩⟩⟩ := balanceExcess_ok h
  · exact hc
  · unfold Counted at *
    simp only [length_insert]
    rw [if_pos (by rw [ho]; rfl)]
    exact hc
  · have := hmv _ _ _ _ hv
    subst this
    exact hc
  · have := hmv _ _ _ _ hv
    subst this
    unfold Counted at *
    simp only [length_insert]
    rw [if_neg (by rw [hg]; simp), Nat.add_right_comm]
    exact .addOut hc hao

theorem splitOne_counted {s0 : σ} {st : UStore} {t : Token} {s s' : TS σ} (h : splitOne E W st t s = .ok s')
    (hc : Counted E s0 s) : Counted E s0 s' := by
  rcases splitOne_ok h with rfl | ⟨ch, a, rest, fee, hg, has, _, _, rfl⟩ |
    ⟨ch, as, as', fee, est', hg, _, hfo, _, _, hao, rfl⟩
  · exact hc
  · unfold Counted at *
    simp only [length_insert]
    rw [if_pos (by rw [hg]; rfl)]
    exact hc
  · unfold Counted at *
    simp only [splitState, length_insert, List.length_append, List.length_singleton]
    rw [if_pos (by rw [hg]; rfl), ← Nat.add_assoc]
    exact .addOut hc hao

theorem round1_counted (hmv : ∀ s o v s', E.minValueOut s o = .ok (v, s') → s' = s) {s0 : σ} {fuel : Nat}
    {ts : List Token} {s s' : TS σ} {st st' : UStore} (h : round1 E W req fuel ts s st = .ok (s', st'))
    (hc : Counted E s0 s) : Counted E s0 s' := by
  induction ts generalizing s st with
  | nil => cases h; exact hc
  | cons t ts ih =>
    simp only [round1] at h
    split at h
    · cases h
    · rename_i s1 st1 h1
      split at h
      · cases h
      · rename_i s2 h2
        exact ih h (balanceExcessOf_counted hmv h2 ((untilAsset_ok _ h1).1.counted hc))

/-- At the end the estimator has counted the selected inputs and the changes, each once. -/
theorem select_counted (hmv : ∀ s o v s', E.minValueOut s o = .ok (v, s') → s' = s) {s0 : σ} {s s' : TS σ}
    {st st' : UStore} (h : select E W req st s = .ok (s', st')) (hc : Counted E s0 s) : Counted E s0 s' := by
  obtain ⟨s1, st1, s2, st2, s3, s4, s5, h1, h2, h3, h4, h5, h6⟩ := select_ok h
  have c1 := round1_counted hmv h1 hc
  have c2 := (untilMain_ok _ h2).1.counted c1
  have c3 := h3.counted c2
  have c4 := forTokens_inv (Counted E s0) (fun t s s' => balanceExcessOf_counted hmv) h4 c3
  have c5 := balanceExcess_counted hmv h5 c4
  exact forTokens_inv (Counted E s0) (fun t s s' => splitOne_counted) h6 c5

/-- The changes of the answer, counted. -/
theorem allChanges_length (hc : ∀ l, (W.changeOrder l).Perm l) {s : TS σ} (hn : s.changes.keys.Nodup) :
    (allChanges W s).length = s.changes.length + s.extra.length := by
  have h1 := mapSum_keys (g := fun _ : Output => (1 : ℚ)) hn (hc s.changes.keys)
  have h2 : ∀ l : List Output, (l.map (fun _ : Output => (1 : ℚ))).sum = l.length := by
    intro l; induction l with
    | nil => rfl
    | cons a l ih => rw [List.map_cons, List.sum_cons, ih]; push_cast [List.length_cons]; ring
  have h3 : mapSum (fun _ : Output => (1 : ℚ)) s.changes = s.changes.length := by
    unfold mapSum
    generalize s.changes = m
    induction m with
    | nil => rfl
    | cons a l ih => rw [List.map_cons, List.sum_cons, ih]; push_cast [List.length_cons]; ring
  rw [h2, h3] at h1
  unfold allChanges
  rw [List.length_append]
  have : ((W.changeOrder s.changes.keys).filterMap s.changes.get).length = s.changes.length := by exact_mod_cast h1
  rw [this]

end Verif.Selection.Thermostat
