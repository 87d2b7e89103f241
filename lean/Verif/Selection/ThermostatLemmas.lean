import Verif.Selection.Thermostat
import Verif.Selection.LargestFirstLemmas

/-!
# Lemmas about the thermostat
-/

namespace Verif.Selection.Thermostat

open Verif Verif.Core

theorem bind_ok {α β : Type} {x : Except SelErr α} {f : α → Except SelErr β} {b : β} :
    (x >>= f) = .ok b ↔ ∃ a, x = .ok a ∧ f a = .ok b := by
  cases x with
  | error e => simp [bind, Except.bind]
  | ok a => simp [bind, Except.bind]

theorem bind_error {α β : Type} {x : Except SelErr α} {f : α → Except SelErr β} {e : SelErr} :
    (x >>= f) = .error e ↔ x = .error e ∨ ∃ a, x = .ok a ∧ f a = .error e := by
  cases x with
  | error e => simp [bind, Except.bind]
  | ok a => simp [bind, Except.bind]

/-! ### Balances: the net amount is exact whatever the signs -/

theorem net_addValue (b : Balance) (r : ℚ) : (b.addValue r).net = b.net + r := by
  cases b with
  | debt l =>
    simp only [Balance.addValue]
    split
    · simp only [Balance.net]; ring
    · split
      · subst_vars; simp [Balance.net]
      · simp only [Balance.net]; ring
  | balanced =>
    simp only [Balance.addValue]
    split
    · subst_vars; simp [Balance.net]
    · simp [Balance.net]
  | excess l => simp [Balance.addValue, Balance.net]

theorem net_subValue (b : Balance) (r : ℚ) : (b.subValue r).net = b.net - r := by
  cases b with
  | debt l => simp only [Balance.subValue, Balance.net]; ring
  | balanced =>
    simp only [Balance.subValue]
    split
    · subst_vars; simp [Balance.net]
    · simp [Balance.net]
  | excess l =>
    simp only [Balance.subValue]
    split
    · simp only [Balance.net]; ring
    · split
      · subst_vars; simp [Balance.net]
      · simp only [Balance.net]

/-! ### Sums over a map -/

/-- The sum of a number over the values of a map. -/
def mapSum {K V : Type} (g : V → ℚ) (m : AMap K V) : ℚ := (m.map (fun kv => g kv.2)).sum

theorem mapSum_insert {K V : Type} [DecidableEq K] (g : V → ℚ) (m : AMap K V) (k : K) (v : V) :
    mapSum g (m.insert k v) = mapSum g m - ((m.get k).map g).getD 0 + g v := by
  induction m with
  | nil => simp [mapSum, AMap.insert]
  | cons kv m ih =>
    obtain ⟨k', w⟩ := kv
    unfold mapSum at *
    simp only [AMap.insert, AMap.get_cons]
    by_cases h : k' = k
    · simp [h]; ring
    · simp only [h, if_false, List.map_cons, List.sum_cons, ih]; ring

theorem mapSum_keys {K V : Type} [DecidableEq K] (g : V → ℚ) {m : AMap K V} (hn : m.keys.Nodup)
    {ks : List K} (hp : ks.Perm m.keys) : ((ks.filterMap m.get).map g).sum = mapSum g m := by
  have h1 : (ks.filterMap m.get).Perm (m.keys.filterMap m.get) := hp.filterMap _
  rw [(h1.map g).sum_eq]
  have h2 : m.keys.filterMap m.get = m.map (·.2) := by
    clear hp h1 ks
    have : ∀ l : AMap K V, (∀ kv ∈ l, m.get kv.1 = some kv.2) → l.keys.filterMap m.get = l.map (·.2) := by
      intro l hl
      induction l with
      | nil => rfl
      | cons kv l ih =>
        rw [AMap.keys_cons, List.filterMap_cons, hl kv (by simp), ih (fun x hx => hl x (by simp [hx]))]
        rfl
    exact this m (fun kv hkv => AMap.get_of_mem hn hkv)
  rw [h2, List.map_map]; rfl

/-- The main token amount held by the changes. -/
def changeValue {σ : Type} (s : TS σ) : ℚ := mapSum (·.value) s.changes + (s.extra.map (·.value)).sum

/-- The amount of an asset held by the changes. -/
def changeAsset {σ : Type} (t : Token) (s : TS σ) : ℚ :=
  mapSum (fun o => assetSum t o.assets) s.changes + (s.extra.map (fun o => assetSum t o.assets)).sum

/-- Books of the main token: nothing is created or lost. -/
structure MainOK {σ : Type} (base : ℚ) (s : TS σ) : Prop where
  net : s.balance.net = base + (s.selected.map (·.value)).sum - changeValue s
  nodup : s.changes.keys.Nodup

section Steps

variable {σ : Type} {E : Estimator σ} {W : World} {req : Request}

theorem openChange_main {t : Token} {addr : Nat} {w : ℚ} {s s1 : TS σ} {o : Output}
    (h : openChange E t addr w s = .ok (s1, o)) :
    s1.balance.net = s.balance.net - o.value + ((s.changes.get t).map (·.value)).getD 0 ∧
    s1.changes = s.changes ∧ s1.extra = s.extra ∧ s1.selected = s.selected ∧ s1.assets = s.assets ∧
    o.assets = ((s.changes.get t).map (·.assets)).getD [] := by
  unfold openChange at h
  cases hg : s.changes.get t with
  | some o0 =>
    simp only [hg] at h
    cases h
    refine ⟨?_, rfl, rfl, rfl, rfl, rfl⟩
    simp only [net_subValue, Option.map_some, Option.getD_some]; ring
  | none =>
    simp only [hg, bind_ok] at h
    obtain ⟨⟨need, est1⟩, _, fee, _, est2, _, h⟩ := h
    cases h
    refine ⟨?_, rfl, rfl, rfl, rfl, ?_⟩
    · simp only [Option.map_none, Option.getD_none]
      split <;> split <;> simp only [net_subValue] <;> ring
    · simp only [Option.map_none, Option.getD_none]
      split <;> split <;> rfl

theorem addToChange_value {st : UStore} {t : Token} {x : ℚ} {o o' : Output}
    (h : addToChange st t x o = .ok o') : o'.value = o.value := by
  unfold addToChange at h
  split at h
  · cases h; rfl
  · split at h
    · cases h
    · cases h; rfl

theorem clamp_net (o : Output) (b : Balance) :
    (clamp W o b).2.net = b.net + o.value - (clamp W o b).1.value := by
  unfold clamp
  split
  · simp only [net_subValue]; ring
  · split
    · simp only [net_addValue]; ring
    · simp

theorem clamp_assets (o : Output) (b : Balance) : (clamp W o b).1.assets = o.assets := by
  unfold clamp
  split
  · rfl
  · split <;> rfl

/-- What a successful `balance_excess_of_asset` did. -/
theorem balanceExcessOf_ok {st : UStore} {t : Token} {s s' : TS σ}
    (h : balanceExcessOf E W req st t s = .ok s') :
    (s' = s ∧ ∃ b, currentOf W s t = .ok b ∧ ∀ x, b ≠ .excess x) ∨
    ∃ x addr b s1 o o1, currentOf W s t = .ok (.excess x) ∧ req.address = some addr ∧
      currentBalance E s = .ok b ∧ openChange E t addr (excessOr0 b) s = .ok (s1, o) ∧
      addToChange st t x o = .ok o1 ∧
      s' = { s1 with
        assets := adjust (·.subValue x) s1.assets t
        changes := s1.changes.insert t (clamp W o1 s1.balance).1
        balance := (clamp W o1 s1.balance).2 } := by
  unfold balanceExcessOf at h
  cases hc : currentOf W s t with
  | error e => simp [hc] at h
  | ok b =>
    cases b with
    | debt v => simp only [hc] at h; cases h; exact Or.inl ⟨rfl, _, rfl, by simp⟩
    | balanced => simp only [hc] at h; cases h; exact Or.inl ⟨rfl, _, rfl, by simp⟩
    | excess x =>
      simp only [hc] at h
      cases ha : req.address with
      | none => simp [ha] at h
      | some addr =>
        simp only [ha, bind_ok] at h
        obtain ⟨b, h1, ⟨s1, o⟩, h2, o1, h3, h⟩ := h
        cases h
        exact Or.inr ⟨x, addr, b, s1, o, o1, rfl, rfl, h1, h2, h3, rfl⟩

theorem balanceExcessOf_main {st : UStore} {t : Token} {s s' : TS σ} {base : ℚ}
    (h : balanceExcessOf E W req st t s = .ok s') (hm : MainOK base s) : MainOK base s' := by
  rcases balanceExcessOf_ok h with ⟨rfl, _⟩ | ⟨x, addr, b, s1, o, o1, _, _, _, h2, h3, rfl⟩
  · exact hm
  · obtain ⟨h4, h5, h6, h7, h8, _⟩ := openChange_main h2
    have h9 := addToChange_value h3
    refine ⟨?_, by simp only [h5]; exact AMap.nodup_insert hm.nodup _ _⟩
    have := hm.net
    unfold changeValue at *
    simp only [clamp_net, mapSum_insert, h4, h5, h6, h7, h9]
    rw [this]; ring

/-- What a successful `balance_excess` did. -/
theorem balanceExcess_ok {s s' : TS σ} (h : balanceExcess E W req s = .ok s') :
    ∃ b, currentBalance E s = .ok b ∧
    ((s' = s ∧ ∀ x, b ≠ .excess x) ∨
     ∃ x addr, b = .excess x ∧ req.address = some addr ∧
      ((∃ o, s.changes.get W.cfg.main = some o ∧ s' = { s with
          changes := s.changes.insert W.cfg.main { o with value := o.value + x }
          balance := s.balance.subValue x }) ∨
       (s.changes.get W.cfg.main = none ∧
        ∃ need est, E.minValueOut s.est { address := addr, value := x, assets := [] } = .ok (need, est) ∧
          ((s' = { s with est := est }) ∨
           (∃ fee est', E.feeOut est { address := addr, value := x, assets := [] } = .ok fee ∧
            ¬ x < need + fee ∧
            E.addOut est { address := addr, value := x - fee, assets := [] } = .ok est' ∧
            s' = { s with
              est := est'
              balance := s.balance.subValue (x - fee)
              changes := s.changes.insert W.cfg.main
                { address := addr, value := x - fee, assets := [] } }))))) := by
  unfold balanceExcess at h
  rw [bind_ok] at h
  obtain ⟨b, hb, h⟩ := h
  refine ⟨b, hb, ?_⟩
  cases b with
  | debt v => simp only at h; cases h; exact Or.inl ⟨rfl, by simp⟩
  | balanced => simp only at h; cases h; exact Or.inl ⟨rfl, by simp⟩
  | excess x =>
    simp only at h
    cases ha : req.address with
    | none => simp [ha] at h
    | some addr =>
      simp only [ha] at h
      refine Or.inr ⟨x, addr, rfl, rfl, ?_⟩
      cases hg : s.changes.get W.cfg.main with
      | some o => simp only [hg] at h; cases h; exact Or.inl ⟨o, rfl, rfl⟩
      | none =>
        simp only [hg, bind_ok] at h
        obtain ⟨⟨need, est⟩, h1, h⟩ := h
        refine Or.inr ⟨rfl, need, est, h1, ?_⟩
        simp only at h
        split at h
        · cases h; exact Or.inl rfl
        · rw [bind_ok] at h
          obtain ⟨fee, h2, h⟩ := h
          split at h
          · cases h; exact Or.inl rfl
          · rename_i hlt
            rw [bind_ok] at h
            obtain ⟨est', h3, h⟩ := h
            cases h
            exact Or.inr ⟨fee, est', h2, hlt, h3, rfl⟩

theorem balanceExcess_main {s s' : TS σ} {base : ℚ}
    (h : balanceExcess E W req s = .ok s') (hm : MainOK base s) : MainOK base s' := by
  obtain ⟨b, _, ⟨rfl, _⟩ | ⟨x, addr, _, _, ⟨o, ho, rfl⟩ |
    ⟨hg, need, est, _, rfl | ⟨fee, est', _, _, _, rfl⟩⟩⟩⟩ := balanceExcess_ok h
  · exact hm
  · refine ⟨?_, AMap.nodup_insert hm.nodup _ _⟩
    have := hm.net
    unfold changeValue at *
    simp only [mapSum_insert, net_subValue, ho, Option.map_some, Option.getD_some]
    rw [this]; ring
  · exact ⟨hm.net, hm.nodup⟩
  · refine ⟨?_, AMap.nodup_insert hm.nodup _ _⟩
    have := hm.net
    unfold changeValue at *
    simp only [mapSum_insert, net_subValue, hg, Option.map_none, Option.getD_none]
    rw [this]; ring

/-- The state after a split: the new part gets `half` of the first asset and `v` of the main token. -/
def splitState (t : Token) (ch : Output) (as as' : List Asset) (v fee : ℚ) (est' : σ) (s : TS σ) : TS σ :=
  { s with
    est := est'
    changes := s.changes.insert t { ch with assets := as, value := ch.value - v - fee }
    balance := s.balance.addValue fee
    extra := s.extra ++ [{ ch with assets := as', value := v }] }

/-- What a successful iteration of `split_accumulators` did. -/
theorem splitOne_ok {st : UStore} {t : Token} {s s' : TS σ} (h : splitOne E W st t s = .ok s') :
    s' = s ∨
    (∃ ch a rest fee, s.changes.get t = some ch ∧ ch.assets = a :: rest ∧
      E.feeOut s.est { ch with assets := { a with quantity := trunc (W.div a.quantity 2) } :: rest } =
        .ok fee ∧
      (trunc (W.div ch.value 2) ≤ trunc (W.div fee 2) ∨ trunc (W.div ch.value 2) ≤ fee) ∧
      s' = { s with changes := s.changes.insert t { ch with
        assets := { a with quantity := a.quantity - trunc (W.div a.quantity 2) } :: rest } }) ∨
    (∃ ch as as' fee est', s.changes.get t = some ch ∧
      ((∃ a rest, ch.assets = a :: rest ∧
          as = { a with quantity := a.quantity - trunc (W.div a.quantity 2) } :: rest ∧
          as' = { a with quantity := trunc (W.div a.quantity 2) } :: rest) ∨
        (ch.assets = [] ∧ as = [] ∧ as' = [])) ∧
      E.feeOut s.est { ch with assets := as' } = .ok fee ∧
      trunc (W.div fee 2) < trunc (W.div ch.value 2) ∧ fee < trunc (W.div ch.value 2) ∧
      E.addOut s.est { ch with assets := as', value := trunc (W.div ch.value 2) - trunc (W.div fee 2) }
        = .ok est' ∧
      s' = splitState t ch as as' (trunc (W.div ch.value 2) - trunc (W.div fee 2)) fee est' s) := by
  unfold splitOne at h
  split at h
  · rename_i ch total hg hb
    split at h
    · rename_i a rest has
      unfold splitAsset at h
      rw [bind_ok] at h
      obtain ⟨pivot, _, h⟩ := h
      simp only at h
      split at h
      · rw [bind_ok] at h
        obtain ⟨fee, h1, h⟩ := h
        split at h
        · rename_i hle
          cases h
          exact Or.inr (Or.inl ⟨ch, a, rest, fee, hg, has, h1, hle, rfl⟩)
        · rename_i hle
          rw [bind_ok] at h
          obtain ⟨est', h2, h⟩ := h
          cases h
          simp only [not_or, not_le] at hle
          exact Or.inr (Or.inr ⟨ch, _, _, fee, est', hg, Or.inl ⟨a, rest, has, rfl, rfl⟩, h1, hle.1,
            hle.2, h2, rfl⟩)
      · cases h; exact Or.inl rfl
    · rename_i has
      split at h
      · unfold splitMain at h
        rw [bind_ok] at h
        obtain ⟨pivot, _, h⟩ := h
        rw [bind_ok] at h
        obtain ⟨fee, h1, h⟩ := h
        simp only at h
        split at h
        · cases h; exact Or.inl rfl
        · rename_i hle
          split at h
          · rw [bind_ok] at h
            obtain ⟨est', h2, h⟩ := h
            cases h
            simp only [not_or, not_le] at hle
            have hch : ch = { ch with assets := [] } := by rw [← has]
            refine Or.inr (Or.inr ⟨ch, [], [], fee, est', hg, Or.inr ⟨has, rfl, rfl⟩, ?_, hle.1, hle.2,
              ?_, ?_⟩)
            · rw [← hch]; exact h1
            · rw [← h2]; congr 1; rw [← has]
            · unfold splitState
              simp only [← has]
          · cases h; exact Or.inl rfl
      · cases h; exact Or.inl rfl
  · cases h; exact Or.inl rfl

theorem splitState_main {t : Token} {ch : Output} {as as' : List Asset} {v fee : ℚ} {est' : σ} {s : TS σ}
    {base : ℚ} (hg : s.changes.get t = some ch) (hm : MainOK base s) :
    MainOK base (splitState t ch as as' v fee est' s) := by
  refine ⟨?_, AMap.nodup_insert hm.nodup _ _⟩
  have := hm.net
  unfold changeValue splitState at *
  simp only [mapSum_insert, net_addValue, hg, Option.map_some, Option.getD_some, List.map_append,
    List.sum_append, List.map_cons, List.map_nil, List.sum_cons, List.sum_nil]
  rw [this]; ring

theorem splitOne_main {st : UStore} {t : Token} {s s' : TS σ} {base : ℚ}
    (h : splitOne E W st t s = .ok s') (hm : MainOK base s) : MainOK base s' := by
  rcases splitOne_ok h with rfl | ⟨ch, a, rest, fee, hg, has, _, _, rfl⟩ |
    ⟨ch, as, as', fee, est', hg, _, _, _, _, _, rfl⟩
  · exact hm
  · refine ⟨?_, AMap.nodup_insert hm.nodup _ _⟩
    have := hm.net
    unfold changeValue at *
    simp only [mapSum_insert, hg, Option.map_some, Option.getD_some]
    rw [this]; ring
  · exact splitState_main hg hm

theorem addInput_main {s : TS σ} {u : Utxo} {base : ℚ} (hm : MainOK base s) (est' : σ) :
    MainOK base (addInput { s with est := est' } u) := by
  refine ⟨?_, hm.nodup⟩
  have := hm.net
  unfold changeValue addInput at *
  simp only [net_addValue, List.map_append, List.sum_append, List.map_cons, List.map_nil, List.sum_cons,
    List.sum_nil]
  rw [this]; ring

/-! ### Taking inputs -/

/-- Taking an input for one of the tokens, or an attempt that fails after the estimator took it. -/
inductive Take (E : Estimator σ) (W : World) (T : Token → Prop) : TS σ → UStore → TS σ → UStore → Prop
  | take {s : TS σ} {st st' : UStore} {t : Token} {u : Utxo} {est' : σ} (ht : T t)
      (hc : candidate W st t = some u) (ha : E.addIn s.est u = .ok est') (hr : st.remove u.ptr = .ok st') :
      Take E W T s st (addInput { s with est := est' } u) st'
  | lost {s : TS σ} {st : UStore} {t : Token} {u : Utxo} {est' : σ} {e : StoreErr} (ht : T t)
      (hc : candidate W st t = some u) (ha : E.addIn s.est u = .ok est') (hr : st.remove u.ptr = .error e) :
      Take E W T s st (addInput { s with est := est' } u) st

/-- Any number of takes. -/
inductive Takes (E : Estimator σ) (W : World) (T : Token → Prop) : TS σ → UStore → TS σ → UStore → Prop
  | refl {s : TS σ} {st : UStore} : Takes E W T s st s st
  | head {s s1 s2 : TS σ} {st st1 st2 : UStore} (h : Take E W T s st s1 st1)
      (hs : Takes E W T s1 st1 s2 st2) : Takes E W T s st s2 st2

theorem selectInput_ok {st st' : UStore} {t : Token} {s s' : TS σ} {T : Token → Prop} (ht : T t)
    (h : selectInput E W st t s = (s', .ok st')) : Take E W T s st s' st' := by
  unfold selectInput at h
  split at h
  · cases h
  · rename_i u hc
    split at h
    · cases h
    · rename_i est' ha
      cases hr : st.remove u.ptr with
      | error e => simp only [hr] at h; cases e <;> cases h
      | ok st1 => simp only [hr] at h; cases h; exact .take ht hc ha hr

theorem selectInput_error {st : UStore} {t : Token} {s s' : TS σ} {e : SelErr} {T : Token → Prop} (ht : T t)
    (h : selectInput E W st t s = (s', .error e)) : s' = s ∨ Take E W T s st s' st := by
  unfold selectInput at h
  split at h
  · cases h; exact Or.inl rfl
  · rename_i u hc
    split at h
    · cases h; exact Or.inl rfl
    · rename_i est' ha
      cases hr : st.remove u.ptr with
      | error e => simp only [hr] at h; cases e <;> cases h <;> exact Or.inr (.lost ht hc ha hr)
      | ok st1 => simp only [hr] at h; cases h

theorem untilAsset_ok {t : Token} (fuel : Nat) {s s' : TS σ} {st st' : UStore}
    (h : untilAsset E W t fuel s st = .ok (s', st')) :
    Takes E W (· = t) s st s' st' ∧ ∃ b, currentOf W s' t = .ok b ∧ b.inDebt = false := by
  induction fuel generalizing s st with
  | zero =>
    unfold untilAsset at h
    cases hc : currentOf W s t with
    | error e => simp [hc] at h
    | ok b =>
      cases b <;> simp only [hc] at h <;> cases h <;> exact ⟨.refl, _, hc, rfl⟩
  | succ fuel ih =>
    unfold untilAsset at h
    cases hc : currentOf W s t with
    | error e => simp [hc] at h
    | ok b =>
      cases b with
      | debt v =>
        simp only [hc] at h
        split at h
        · rename_i s1 st1 hsel
          obtain ⟨h1, h2⟩ := ih h
          exact ⟨.head (selectInput_ok rfl hsel) h1, h2⟩
        · cases h
      | balanced => simp only [hc] at h; cases h; exact ⟨.refl, _, hc, rfl⟩
      | excess v => simp only [hc] at h; cases h; exact ⟨.refl, _, hc, rfl⟩

theorem untilMain_ok (fuel : Nat) {s s' : TS σ} {st st' : UStore}
    (h : untilMain E W fuel s st = .ok (s', st')) :
    Takes E W (· = W.cfg.main) s st s' st' ∧ ∃ b, currentBalance E s' = .ok b ∧ b.inDebt = false := by
  induction fuel generalizing s st with
  | zero =>
    unfold untilMain at h
    cases hc : currentBalance E s with
    | error e => simp [hc] at h
    | ok b =>
      cases b <;> simp only [hc] at h <;> cases h <;> exact ⟨.refl, _, hc, rfl⟩
  | succ fuel ih =>
    unfold untilMain at h
    cases hc : currentBalance E s with
    | error e => simp [hc] at h
    | ok b =>
      cases b with
      | debt v =>
        simp only [hc] at h
        split at h
        · rename_i s1 st1 hsel
          obtain ⟨h1, h2⟩ := ih h
          exact ⟨.head (selectInput_ok rfl hsel) h1, h2⟩
        · cases h
      | balanced => simp only [hc] at h; cases h; exact ⟨.refl, _, hc, rfl⟩
      | excess v => simp only [hc] at h; cases h; exact ⟨.refl, _, hc, rfl⟩

theorem fill_ok {toks : List Token} (fuel : Nat) {empty : List Bool} {ix : Nat} {s s' : TS σ}
    {st st' : UStore} (h : fill E W req toks fuel empty ix s st = .ok (s', st')) :
    Takes E W (· ∈ toks) s st s' st' := by
  induction fuel generalizing s st empty ix with
  | zero =>
    unfold fill at h
    cases hc : remaining E W req s with
    | error e => simp [hc] at h
    | ok n =>
      cases n <;> simp only [hc] at h <;> cases h
      exact .refl
  | succ fuel ih =>
    unfold fill at h
    cases hc : remaining E W req s with
    | error e => simp [hc] at h
    | ok n =>
      cases n with
      | zero => simp only [hc] at h; cases h; exact .refl
      | succ n =>
        simp only [hc] at h
        split at h
        · rename_i t flag ht hflag
          have hmem : t ∈ toks := List.mem_of_getElem? ht
          split at h
          · split at h
            · exact ih h
            · split at h
              · rename_i hsel
                exact .head (selectInput_ok (T := (· ∈ toks)) hmem hsel) (ih h)
              · cases h
              · rename_i hsel
                rcases selectInput_error (T := (· ∈ toks)) hmem hsel with rfl | h1
                · exact ih h
                · exact .head h1 (ih h)
          · split at h
            · cases h; exact .refl
            · exact ih h
        · cases h

theorem Takes.main {T : Token → Prop} {s s' : TS σ} {st st' : UStore} {base : ℚ}
    (h : Takes E W T s st s' st') (hm : MainOK base s) : MainOK base s' := by
  induction h with
  | refl => exact hm
  | head h _ ih =>
    apply ih
    cases h with
    | take => exact addInput_main hm _
    | lost => exact addInput_main hm _

theorem forTokens_inv {f : Token → TS σ → Except SelErr (TS σ)} (P : TS σ → Prop)
    (hf : ∀ t s s', f t s = .ok s' → P s → P s') {ts : List Token} {s s' : TS σ}
    (h : forTokens f ts s = .ok s') (hp : P s) : P s' := by
  induction ts generalizing s with
  | nil => cases h; exact hp
  | cons t ts ih =>
    simp only [forTokens] at h
    split at h
    · cases h
    · rename_i s1 h1
      exact ih h (hf _ _ _ h1 hp)

theorem round1_main {fuel : Nat} {ts : List Token} {s s' : TS σ} {st st' : UStore} {base : ℚ}
    (h : round1 E W req fuel ts s st = .ok (s', st')) (hm : MainOK base s) : MainOK base s' := by
  induction ts generalizing s st with
  | nil => cases h; exact hm
  | cons t ts ih =>
    simp only [round1] at h
    split at h
    · cases h
    · rename_i s1 st1 h1
      split at h
      · cases h
      · rename_i s2 h2
        exact ih h (balanceExcessOf_main h2 ((untilAsset_ok _ h1).1.main hm))

/-- The tokens of the filling loop, thermostat.rs:519-521. -/
def fillTokens (W : World) (assets : AMap Token Balance) (toks : List Token) : List Token :=
  if assets.isEmpty || toks.isEmpty then toks ++ [W.cfg.main] else toks

/-- The tokens of the second round, thermostat.rs:548-552. -/
def lastTokens (W : World) (assets : AMap Token Balance) (toks : List Token) : List Token :=
  if assets.isEmpty || (toks.length == 1 && toks.head? == some W.cfg.main) then toks.dropLast else toks

/-- The phases of a successful `select`. -/
theorem select_ok {s s' : TS σ} {st st' : UStore} (h : select E W req st s = .ok (s', st')) :
    ∃ s1 st1 s2 st2 s3 s4 s5,
      round1 E W req (st.len + 1) (W.keyOrder s.assets.keys) s st = .ok (s1, st1) ∧
      untilMain E W (st.len + 1) s1 st1 = .ok (s2, st2) ∧
      Takes E W (· ∈ fillTokens W s2.assets (W.keyOrder s.assets.keys)) s2 st2 s3 st' ∧
      forTokens (balanceExcessOf E W req st')
        (lastTokens W s3.assets (fillTokens W s2.assets (W.keyOrder s.assets.keys))) s3 = .ok s4 ∧
      balanceExcess E W req s4 = .ok s5 ∧
      forTokens (splitOne E W st') (W.changeOrder s5.changes.keys) s5 = .ok s' := by
  unfold select at h
  simp only [bind_ok] at h
  obtain ⟨⟨s1, st1⟩, h1, ⟨s2, st2⟩, h2, ⟨s3, st3⟩, h3, s4, h4, s5, h5, s6, h6, h7⟩ := h
  cases h7
  exact ⟨s1, st1, s2, st2, s3, s4, s5, h1, h2, fill_ok _ h3, h4, h5, h6⟩

theorem select_main {s s' : TS σ} {st st' : UStore} {base : ℚ}
    (h : select E W req st s = .ok (s', st')) (hm : MainOK base s) : MainOK base s' := by
  obtain ⟨s1, st1, s2, st2, s3, s4, s5, h1, h2, h3, h4, h5, h6⟩ := select_ok h
  have m1 := round1_main h1 hm
  have m2 := (untilMain_ok _ h2).1.main m1
  have m3 := h3.main m2
  have m4 := forTokens_inv (MainOK base) (fun t s s' => balanceExcessOf_main) h4 m3
  have m5 := balanceExcess_main h5 m4
  exact forTokens_inv (MainOK base) (fun t s s' => splitOne_main) h6 m5

end Steps

end Verif.Selection.Thermostat
