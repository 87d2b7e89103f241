import Verif.Selection.ThermostatAlike

/-!
# C104: the answer of a selection does not depend on hash maps

The UTxOs of one amount are kept in a hash map, whose order changes from run to run. Two runs are compared: the UTxOs
they may use hold the same, in any order and under any pointers, and every hash map may list its entries in another
order.
-/

namespace Verif.Props

open Verif Verif.Core Verif.Selection Verif.Selection.Thermostat

variable {σ : Type} {E : Estimator σ} {R : σ → σ → Prop}

/-- Answers with which the caller sees the same: the same error, or the same totals, fee and changes, and chosen UTxOs
that agree in `key`, one by one. `R` relates the estimator's states. -/
def SeenAlike {κ : Type} (R : σ → σ → Prop) (key : Utxo → κ) (x y : Except SelErr (Result × σ)) : Prop :=
  match x, y with
  | .ok (r, e), .ok (r', e') => r.chosen.map key = r'.chosen.map key ∧
      { r with chosen := [] } = { r' with chosen := [] } ∧ R e e'
  | .error e, .error e' => e = e'
  | _, _ => False

/-! ### Largest-first -/

/-- The UTxOs of an amount of a needed token hold the same, so does everything the two runs may use. -/
structure AlikeWallets (needed : List Token) (avail1 avail2 : List Utxo) (st1 st2 : UStore) : Prop where
  store1 : StoreOK avail1 st1
  store2 : StoreOK avail2 st2
  same : (avail1.map content).Perm (avail2.map content)
  ties : ∀ t ∈ needed, ∀ u ∈ avail1, ∀ w ∈ avail1, Holds t u → Holds t w → held t u = held t w → content u = content w

/-- Largest-first: when UTxOs with the same amount of a needed token hold the same, the answer is the same in every run,
and what is left holds the same. -/
theorem C104_largest {ord1 ord2 : List Utxo → List Utxo} (ho1 : ∀ l, (ord1 l).Perm l) (ho2 : ∀ l, (ord2 l).Perm l)
    (hE : SeesContent E R) {avail1 avail2 : List Utxo} {st1 st2 : UStore} {est1 est2 : σ} (hR : R est1 est2)
    {io : Setup} (h : AlikeWallets (mainToken :: io.outputAssets.keys) avail1 avail2 st1 st2) :
    SeenAlike R content (largestFirst E ord1 st1 est1 io).1 (largestFirst E ord2 st2 est2 io).1 ∧
    ((availableInputs (largestFirst E ord1 st1 est1 io).2).map content).Perm
      ((availableInputs (largestFirst E ord2 st2 est2 io).2).map content) := by
  have hl : Looks E R content True (· ∈ mainToken :: io.outputAssets.keys) avail1 := by
    refine ⟨fun u w e => congrArg Prod.fst e, fun _ u w e => congrArg Prod.snd e, hE.feeIn, hE.addIn, ?_⟩
    intro t ht u hu w hw hs e
    have hH : ∀ {x : Utxo}, x ∈ avail1 → amountOf t x ≠ none → Holds t x := by
      intro x hx hn
      have : x ∈ holders t avail1 := mem_holders.mpr ⟨hx, by rw [Option.isSome_iff_ne_none]; exact hn⟩
      rw [holders_eq_filter] at this
      simpa using (List.mem_filter.mp this).2
    refine h.ties t ht u hu w hw (hH hu hs) (hH hw (e ▸ hs)) ?_
    rw [← amountOf_held (h.store1.distinct u hu), ← amountOf_held (h.store1.distinct w hw), e]
  obtain ⟨h1, M1, M2, k1, k2, hp⟩ := largestFirst_same hl (by simp) ho1 ho2 h.store1 h.store2 h.same hR
    (hE.minFee _ _ hR) io (fun x hx => ⟨List.mem_cons_of_mem _ (List.mem_map.mpr ⟨x, hx, rfl⟩), trivial⟩)
  refine ⟨?_, by rw [availableInputs_eq k1, availableInputs_eq k2]; exact hp⟩
  revert h1
  cases (largestFirst E ord1 st1 est1 io).1 with
  | error e => cases (largestFirst E ord2 st2 est2 io).1 with
    | error e' => exact id
    | ok y => exact id
  | ok x => cases (largestFirst E ord2 st2 est2 io).1 with
    | error e' => exact id
    | ok y =>
      intro h1
      obtain ⟨r, e⟩ := x
      obtain ⟨r', e'⟩ := y
      refine ⟨h1.chosen, ?_, h1.est⟩
      have a := h1.assets trivial
      have b := h1.rest
      simp only [Result.mk.injEq] at a b ⊢
      tauto

/-- Answers with the same error, or the same balances of the main token and fee, and chosen UTxOs of the same values. -/
def SeenPaid (R : σ → σ → Prop) (x y : Except SelErr (Result × σ)) : Prop :=
  match x, y with
  | .ok (r, e), .ok (r', e') => r.chosen.map (·.value) = r'.chosen.map (·.value) ∧ r.inputBalance = r'.inputBalance ∧
      r.outputBalance = r'.outputBalance ∧ r.fee = r'.fee ∧ R e e'
  | .error e, .error e' => e = e'
  | _, _ => False

/-- Largest-first without assets asked for: nothing but the values of the UTxOs matters, if the estimator does not look
at more. -/
theorem C104_plain {ord1 ord2 : List Utxo → List Utxo} (ho1 : ∀ l, (ord1 l).Perm l) (ho2 : ∀ l, (ord2 l).Perm l)
    (hmin : ∀ s s', R s s' → E.minFee s = E.minFee s')
    (hfee : ∀ s s' u w, R s s' → u.value = w.value → E.feeIn s u = E.feeIn s' w)
    (hadd : ∀ s s' u w x, R s s' → u.value = w.value → E.addIn s u = .ok x → ∃ y, E.addIn s' w = .ok y ∧ R x y)
    (herr : ∀ s s' u w e, R s s' → u.value = w.value → E.addIn s u = .error e → E.addIn s' w = .error e)
    {avail1 avail2 : List Utxo} {st1 st2 : UStore} {est1 est2 : σ} (hR : R est1 est2)
    {io : Setup} (hio : io.outputAssets = []) (h1 : StoreOK avail1 st1) (h2 : StoreOK avail2 st2)
    (hp : (avail1.map (·.value)).Perm (avail2.map (·.value))) :
    SeenPaid R (largestFirst E ord1 st1 est1 io).1 (largestFirst E ord2 st2 est2 io).1 ∧
    ((availableInputs (largestFirst E ord1 st1 est1 io).2).map (·.value)).Perm
      ((availableInputs (largestFirst E ord2 st2 est2 io).2).map (·.value)) := by
  have hl : Looks E R (·.value) False (· = mainToken) avail1 := by
    refine ⟨fun u w e => e, fun h => h.elim, hfee, ?_, ?_⟩
    · intro s s' u w hs e
      cases hx : E.addIn s u with
      | error x => rw [herr s s' u w x hs e hx]; exact rfl
      | ok x =>
        obtain ⟨y, hy, hxy⟩ := hadd s s' u w x hs e hx
        rw [hy]; exact hxy
    · intro t ht u _ w _ _ e
      subst ht
      simpa [amountOf] using e
  obtain ⟨h3, M1, M2, k1, k2, hq⟩ := largestFirst_same hl rfl ho1 ho2 h1 h2 hp hR (hmin _ _ hR) io
    (by rw [hio]; simp)
  refine ⟨?_, by rw [availableInputs_eq k1, availableInputs_eq k2]; exact hq⟩
  revert h3
  cases (largestFirst E ord1 st1 est1 io).1 with
  | error e => cases (largestFirst E ord2 st2 est2 io).1 with
    | error e' => exact id
    | ok y => exact id
  | ok x => cases (largestFirst E ord2 st2 est2 io).1 with
    | error e' => exact id
    | ok y =>
      intro h3
      obtain ⟨r, e⟩ := x
      obtain ⟨r', e'⟩ := y
      have b := h3.rest
      simp only [Result.mk.injEq] at b
      exact ⟨h3.chosen, b.1, b.2.2.1, b.2.2.2.2.2.2.2.2, h3.est⟩

/-! ### The thermostat -/

theorem seenAlike_of {x y : Except SelErr (Result × σ)} (h : Both (SameAnswer R) x y) : SeenAlike R content x y := by
  revert h
  cases x with
  | error e => cases y with
    | error e' => exact id
    | ok y => exact id
  | ok x => cases y with
    | error e' => exact id
    | ok y => exact fun h => ⟨h.chosen, h.rest, h.est⟩

/-- UTxOs without assets and of the same value hold the same. -/
theorem ties_main {avail : List Utxo} {st : UStore} (h : StoreOK avail st) : Ties avail mainToken := by
  intro u hu w hw pu pw _ e
  have hn : ∀ {x : Utxo}, x ∈ avail → Plain mainToken x → x.assets = [] := by
    intro x hx px
    rw [List.eq_nil_iff_forall_not_mem]
    intro a ha
    exact (h.distinct x hx).2 (List.mem_map.mpr ⟨a, ha, px.2 a ha⟩)
  unfold content
  rw [hn hu pu, hn hw pw]
  simpa [amountOf] using e

/-- Two thermostats with the same configuration and build. -/
structure SameWorld (W1 W2 : Thermostat.World) : Prop where
  cfg : W2.cfg = W1.cfg
  div : W2.div = W1.div
  debug : W2.debug = W1.debug

theorem SameWorld.eq {W1 W2 : Thermostat.World} (h : SameWorld W1 W2) : W2 = reorder W1 W2.ord W2.keyOrder W2.changeOrder := by
  obtain ⟨h1, h2, h3⟩ := h
  cases W1; cases W2
  simp only at h1 h2 h3
  subst h1 h2 h3
  rfl

/-- Thermostat, a request without assets: the answer is the same in every run, whatever the order of every hash map, and
what is left holds the same. -/
theorem C104_thermostat_plain {W1 W2 : Thermostat.World} (hW : SameWorld W1 W2) (hE : SeesContent E R) {avail1 avail2 : List Utxo}
    {st1 st2 : UStore} {est1 est2 : σ} (hR : R est1 est2) {ins : List Utxo} {outs : List Output} {ch : Option Nat}
    (h1 : THCase W1 avail1 st1 ins outs) (h2 : THCase W2 avail2 st2 ins outs) (hreq : requestTokens ins outs = [])
    (hp : (avail1.map content).Perm (avail2.map content)) (hids : ∀ t, st1.getAssetIds t = st2.getAssetIds t) :
    SeenAlike R content (thermostat E W1 st1 est1 (Setup.fromFixed ins outs ch)).1
      (thermostat E W2 st2 est2 (Setup.fromFixed ins outs ch)).1 ∧
    ((availableInputs (thermostat E W1 st1 est1 (Setup.fromFixed ins outs ch)).2).map content).Perm
      ((availableInputs (thermostat E W2 st2 est2 (Setup.fromFixed ins outs ch)).2).map content) := by
  have hkeys : (initial est1 (Setup.fromFixed ins outs ch)).assets = [] := by
    have := (initial_assets (est := est1) (ins := ins) (outs := outs) (ch := ch)).2.1
    rw [hreq] at this
    cases he : (initial est1 (Setup.fromFixed ins outs ch)).assets with
    | nil => rfl
    | cons x xs => exact absurd ((this x.1).mp (by rw [he]; simp [AMap.keys])) (by simp)
  have hb := select_same_plain (E := E) (W := W1) (R := R) (req := ⟨ch, outs⟩) (o := W2.ord) (k := W2.keyOrder)
    (c := W2.changeOrder) hE h1.ord h2.ord (s1 := initial est1 (Setup.fromFixed ins outs ch))
    (s2 := initial est2 (Setup.fromFixed ins outs ch)) (st1 := st1) (st2 := st2) h1.keyOrder h2.keyOrder h1.changeOrder
    h2.changeOrder hkeys rfl (by rw [h1.main]; exact ties_main h1.store)
    ⟨⟨hR, rfl, rfl, rfl, rfl, rfl⟩, ⟨_, _, fun _ hu => hu, h1.store, h2.store, hp⟩, hids⟩
  rw [hW.eq]
  obtain ⟨a, M1, M2, k1, k2, hq⟩ := thermostat_same (E := E) (W := W1) (R := R) (o := W2.ord) (k := W2.keyOrder)
    (c := W2.changeOrder) (est1 := est1) (est2 := est2) (Setup.fromFixed ins outs ch) (fun s st' e => by
      have e' : select E W1 ⟨ch, outs⟩ st1 (initial est1 (Setup.fromFixed ins outs ch)) = .ok (s, st') := e
      rw [e'] at hb
      cases e2 : select E (reorder W1 W2.ord W2.keyOrder W2.changeOrder) ⟨ch, outs⟩ st2
          (initial est2 (Setup.fromFixed ins outs ch)) with
      | error x => rw [e2] at hb; exact hb.elim
      | ok y => rw [e2] at hb; exact hb.2.order h2.changeOrder h1.changeOrder)
    h1.store h2.store hp (Both.mono (fun _ _ h => h.1) hb)
  exact ⟨seenAlike_of a, by rw [availableInputs_eq k1, availableInputs_eq k2]; exact hq⟩

/-- A UTxO with one asset. -/
def OnlyAsset (t : Token) (u : Utxo) : Prop := ∃ a, u.assets = [a] ∧ a.fingerprint = t

/-- Thermostat, any request: when UTxOs with nothing but the same amount of a requested asset hold the same, the answer
is the same whatever the order of the UTxOs, and what is left holds the same. The maps of the assets and of the changes
list their entries in the same order in both runs. -/
theorem C104_thermostat {W1 W2 : Thermostat.World} (hW : SameWorld W1 W2) (hE : SeesContent E R) {avail1 avail2 : List Utxo}
    {st1 st2 : UStore} {est1 est2 : σ} (hR : R est1 est2) {ins : List Utxo} {outs : List Output} {ch : Option Nat}
    (h1 : THCase W1 avail1 st1 ins outs) (h2 : THCase W2 avail2 st2 ins outs)
    (hk : W2.keyOrder = W1.keyOrder) (hc : W2.changeOrder = W1.changeOrder)
    (hp : (avail1.map content).Perm (avail2.map content)) (hids : ∀ t, st1.getAssetIds t = st2.getAssetIds t)
    (ht : ∀ t ∈ requestTokens ins outs, ∀ u ∈ avail1, ∀ w ∈ avail1, OnlyAsset t u → OnlyAsset t w →
      held t u = held t w → content u = content w) :
    SeenAlike R content (thermostat E W1 st1 est1 (Setup.fromFixed ins outs ch)).1
      (thermostat E W2 st2 est2 (Setup.fromFixed ins outs ch)).1 ∧
    ((availableInputs (thermostat E W1 st1 est1 (Setup.fromFixed ins outs ch)).2).map content).Perm
      ((availableInputs (thermostat E W2 st2 est2 (Setup.fromFixed ins outs ch)).2).map content) := by
  have hties : ∀ t ∈ requestTokens ins outs, Ties avail1 t := by
    intro t hreq u hu w hw pu pw hs e
    have htm : t ≠ mainToken := fun e => h1.noMain (e ▸ hreq)
    have hO : ∀ {x : Utxo}, Plain t x → amountOf t x ≠ none → OnlyAsset t x := by
      intro x px hx
      match hxa : x.assets with
      | [] => simp [amountOf, htm, hxa] at hx
      | [a] => exact ⟨a, hxa, px.2 a (by simp [hxa])⟩
      | a :: b :: l => have := px.1; rw [hxa] at this; simp at this
    refine ht t hreq u hu w hw (hO pu hs) (hO pw (e ▸ hs)) ?_
    rw [← amountOf_held (h1.store.distinct u hu), ← amountOf_held (h1.store.distinct w hw), e]
  have hb := select_same (E := E) (W := W1) (R := R) (req := ⟨ch, outs⟩) (o := W2.ord) (k := W2.keyOrder)
    (c := W2.changeOrder) hE h1.ord h2.ord (s1 := initial est1 (Setup.fromFixed ins outs ch))
    (s2 := initial est2 (Setup.fromFixed ins outs ch)) (st1 := st1) (st2 := st2) (by rw [hk]) (fun l => by rw [hc])
    h1.keyOrder (fun t h => hties t ((initial_assets.2.1 t).mp h)) (by rw [h1.main]; exact ties_main h1.store)
    ⟨⟨hR, rfl, rfl, rfl, rfl, rfl⟩, ⟨_, _, fun _ hu => hu, h1.store, h2.store, hp⟩, hids⟩
  rw [hW.eq]
  obtain ⟨a, M1, M2, k1, k2, hq⟩ := thermostat_same (E := E) (W := W1) (R := R) (o := W2.ord) (k := W2.keyOrder)
    (c := W2.changeOrder) (est1 := est1) (est2 := est2) (Setup.fromFixed ins outs ch) (fun s st' e => by rw [hc])
    h1.store h2.store hp hb
  exact ⟨seenAlike_of a, by rw [availableInputs_eq k1, availableInputs_eq k2]; exact hq⟩

/-! ### The estimator of the code -/

/-- States of the thermostat's estimator that differ at most in the pointers and addresses of the inputs. -/
structure AlikeLE (s s' : LE) : Prop where
  metadata : s.costMetadata = s'.costMetadata
  size : s.currentSize = s'.currentSize
  outputs : s.outputs = s'.outputs
  inputs : s.inputs.map content = s'.inputs.map content
  assets : s.assetBalance = s'.assetBalance

theorem linearEstimator_sees (c : Costs) (minAda : Output → Except SelErr ℚ) :
    SeesContent (linearEstimator c minAda) AlikeLE where
  minFee s s' h := by
    have : s.inputs.length = s'.inputs.length := by simpa using congrArg List.length h.inputs
    simp only [linearEstimator, h.metadata, h.outputs, this]
  feeIn _ _ _ _ _ _ := rfl
  addIn s s' u w h e := by
    have h2 : u.assets = w.assets := congrArg Prod.snd e
    exact ⟨h.metadata, by simp only [h.size], h.outputs, by simp [h.inputs, e], by simp only [h2, h.assets]⟩
  feeOut _ _ _ _ := rfl
  addOut s s' o h := ⟨h.metadata, by simp only [h.size], by simp only [h.outputs], h.inputs, by simp only [h.assets]⟩
  minValueOut s s' o h := by
    simp only [linearEstimator, bind, Except.bind]
    cases minAda o with
    | error e => exact rfl
    | ok v => exact ⟨rfl, h⟩
  currentSize s s' h := by simp only [linearEstimator, h.size]
  maxSize _ _ _ := rfl

/-! ### Ties that hold something else -/

/-- Two UTxOs with as much of an asset, of which only one pays the rest of the request. -/
def tieAvail : List Utxo := [⟨1, 20000000, [⟨7, 5, 1, 2⟩], 0⟩, ⟨2, 1000000, [⟨7, 5, 1, 2⟩], 0⟩, ⟨3, 50000000, [], 0⟩]

/-- The request. -/
def tieIo : Setup :=
  { outputBalance := 10000000, outputAssets := [(7, ⟨7, 5, 1, 2⟩)], fixedOutputs := [⟨9, 10000000, [⟨7, 5, 1, 2⟩]⟩] }

theorem tie_distinct : ∀ u ∈ tieAvail, DistinctAssets u := by unfold DistinctAssets tieAvail; decide

/-- With assets and ties of different value, largest-first may take one UTxO in one run and two in the next. -/
theorem C104_ties_false : ¬ ∀ (ord1 ord2 : List Utxo → List Utxo) (avail : List Utxo) (st : UStore) (est : LE)
    (io : Setup), (∀ l, (ord1 l).Perm l) → (∀ l, (ord2 l).Perm l) → StoreOK avail st →
    SeenAlike AlikeLE content (largestFirst thE ord1 st est io).1 (largestFirst thE ord2 st est io).1 := by
  intro h
  have h := h id List.reverse tieAvail (thStore tieAvail) thEst tieIo (fun l => List.Perm.refl l) List.reverse_perm
    (thStore_ok tie_distinct (by unfold tieAvail; decide))
  have a : ((largestFirst thE id (thStore tieAvail) thEst tieIo).1.toOption.map (fun x => x.1.chosen.map (·.ptr))) =
      some [1] := by decide +kernel
  have b : ((largestFirst thE List.reverse (thStore tieAvail) thEst tieIo).1.toOption.map
      (fun x => x.1.chosen.map (·.ptr))) = some [2, 3] := by decide +kernel
  revert h a b
  cases (largestFirst thE id (thStore tieAvail) thEst tieIo).1 with
  | error e => intro _ a; simp [Except.toOption] at a
  | ok x => cases (largestFirst thE List.reverse (thStore tieAvail) thEst tieIo).1 with
    | error e => intro _ _ b; simp [Except.toOption] at b
    | ok y =>
      intro h a b
      have h1 := congrArg List.length h.1
      simp only [Except.toOption, Option.map_some, Option.some.injEq] at a b
      have a := congrArg List.length a
      have b := congrArg List.length b
      simp only [List.length_map, List.length_cons, List.length_nil] at h1 a b
      omega

/-! ### Examples -/

/-- The wallet of the examples, and one that holds the same under other pointers and in another order. -/
def repAvail : List Utxo := [⟨1, 20000000, [⟨7, 5, 1, 2⟩], 0⟩, ⟨2, 20000000, [⟨7, 5, 1, 2⟩], 0⟩, ⟨3, 50000000, [], 0⟩,
  ⟨4, 50000000, [], 0⟩]

def repOther : List Utxo := [⟨14, 50000000, [], 0⟩, ⟨11, 20000000, [⟨7, 5, 1, 2⟩], 3⟩, ⟨13, 50000000, [], 0⟩,
  ⟨12, 20000000, [⟨7, 5, 1, 2⟩], 0⟩]

theorem rep_distinct : (∀ u ∈ repAvail, DistinctAssets u) ∧ ∀ u ∈ repOther, DistinctAssets u := by
  unfold DistinctAssets repAvail repOther; decide

theorem rep_same : (repAvail.map content).Perm (repOther.map content) := by decide +kernel

/-- The hash maps of the other run are read backwards. -/
def repWorld : Thermostat.World := ⟨{}, List.reverse, List.reverse, List.reverse, fun q n => q / n, true⟩

theorem rep_ids : ∀ t, (thStore repAvail).getAssetIds t = (thStore repOther).getAssetIds t := by
  intro t
  have h : (thStore repAvail).dictionary = (thStore repOther).dictionary := by decide +kernel
  unfold UStore.getAssetIds
  rw [h]

example : SeenAlike AlikeLE content (largestFirst thE id (thStore repAvail) thEst tieIo).1
    (largestFirst thE List.reverse (thStore repOther) thEst tieIo).1 := by
  refine (C104_largest (fun l => List.Perm.refl l) List.reverse_perm (linearEstimator_sees _ _)
    (avail1 := repAvail) (avail2 := repOther) ⟨rfl, rfl, rfl, rfl, rfl⟩ ⟨thStore_ok rep_distinct.1 (by decide),
      thStore_ok rep_distinct.2 (by decide), rep_same, ?_⟩).1
  decide +kernel

/-- Only the values matter for ada. -/
example : SeenPaid (fun _ _ => True) (largestFirst (flatEstimator 1 1 0) id (thStore repAvail) () { outputBalance := 90000000 }).1
    (largestFirst (flatEstimator 1 1 0) List.reverse
      (thStore [⟨21, 50000000, [], 0⟩, ⟨22, 20000000, [], 0⟩, ⟨23, 50000000, [⟨7, 5, 1, 2⟩], 0⟩, ⟨24, 20000000, [], 0⟩]) ()
      { outputBalance := 90000000 }).1 :=
  (C104_plain (fun l => List.Perm.refl l) List.reverse_perm (fun _ _ _ => rfl) (fun _ _ _ _ _ _ => rfl)
    (fun _ _ _ _ _ _ _ _ => ⟨(), rfl, trivial⟩) (fun _ _ _ _ _ _ _ h => by simp [flatEstimator] at h) trivial rfl
    (thStore_ok rep_distinct.1 (by decide)) (thStore_ok (by unfold DistinctAssets; decide) (by decide))
    (by decide +kernel)).1

/-- A request without assets. -/
def repOuts : List Output := [⟨9, 10000000, []⟩]

example : SeenAlike AlikeLE content
    (thermostat thE (thW {}) (thStore repAvail) thEst (Setup.fromFixed [] repOuts (some 5))).1
    (thermostat thE repWorld (thStore repOther) thEst (Setup.fromFixed [] repOuts (some 5))).1 :=
  (C104_thermostat_plain (W1 := thW {}) (W2 := repWorld) (ins := []) (outs := repOuts) ⟨rfl, rfl, rfl⟩
    (linearEstimator_sees _ _) ⟨rfl, rfl, rfl, rfl, rfl⟩
    (thCase rep_distinct.1 (by decide) rfl (by decide))
    ⟨List.reverse_perm, List.reverse_perm, List.reverse_perm, thStore_ok rep_distinct.2 (by decide), rfl, by decide⟩
    (by decide) rep_same rep_ids).1

/-- The two runs of the last example take different UTxOs. -/
example : (thView thE (thermostat thE (thW {}) (thStore repAvail) thEst (Setup.fromFixed [] repOuts (some 5)))).1.map
    (·.chosen) = some [3] ∧
    (thView thE (thermostat thE repWorld (thStore repOther) thEst (Setup.fromFixed [] repOuts (some 5)))).1.map
    (·.chosen) = some [13] := by decide +kernel

/-- A request with an asset. -/
def tieOuts : List Output := [⟨9, 10000000, [⟨7, 5, 1, 2⟩]⟩]

example : SeenAlike AlikeLE content
    (thermostat thE (thW {}) (thStore repAvail) thEst (Setup.fromFixed [] tieOuts (some 5))).1
    (thermostat thE { thW {} with ord := List.reverse } (thStore repOther) thEst
      (Setup.fromFixed [] tieOuts (some 5))).1 := by
  refine (C104_thermostat (W1 := thW {}) (W2 := { thW {} with ord := List.reverse }) (ins := [])
    (outs := tieOuts) ⟨rfl, rfl, rfl⟩ (linearEstimator_sees _ _) ⟨rfl, rfl, rfl, rfl, rfl⟩
    (thCase rep_distinct.1 (by decide) rfl (by decide +kernel))
    ⟨List.reverse_perm, fun l => List.Perm.refl l, fun l => List.Perm.refl l, thStore_ok rep_distinct.2 (by decide), rfl,
      by decide +kernel⟩ rfl rfl rep_same rep_ids ?_).1
  have h : ∀ t ∈ requestTokens [] tieOuts, t = 7 := by decide +kernel
  intro t ht u hu w hw a b e
  rw [h t ht] at a b e
  revert a b e
  simp only [repAvail, List.mem_cons, List.not_mem_nil, or_false] at hu hw
  rcases hu with rfl | rfl | rfl | rfl <;> rcases hw with rfl | rfl | rfl | rfl <;>
    simp [OnlyAsset, content]

/-- The same for the thermostat: one of the runs needs a further UTxO. -/
theorem C104_thermostat_ties_false : ¬ ∀ (ord1 ord2 : List Utxo → List Utxo) (avail : List Utxo) (st : UStore) (est : LE)
    (ins : List Utxo) (outs : List Output) (ch : Option Nat),
    THCase { thW {} with ord := ord1 } avail st ins outs → THCase { thW {} with ord := ord2 } avail st ins outs →
    SeenAlike AlikeLE content (thermostat thE { thW {} with ord := ord1 } st est (Setup.fromFixed ins outs ch)).1
      (thermostat thE { thW {} with ord := ord2 } st est (Setup.fromFixed ins outs ch)).1 := by
  intro h
  have h := h id List.reverse tieAvail (thStore tieAvail) thEst [] tieOuts (some 5)
    (thCase tie_distinct (by decide) rfl (by decide +kernel))
    ⟨List.reverse_perm, fun l => List.Perm.refl l, fun l => List.Perm.refl l, thStore_ok tie_distinct (by decide), rfl,
      by decide +kernel⟩
  have a : (thView thE (thermostat thE { thW {} with ord := id } (thStore tieAvail) thEst
      (Setup.fromFixed [] tieOuts (some 5)))).1.map (·.chosen) = some [1] := by decide +kernel
  have b : (thView thE (thermostat thE { thW {} with ord := List.reverse } (thStore tieAvail) thEst
      (Setup.fromFixed [] tieOuts (some 5)))).1.map (·.chosen) = some [2, 3] := by decide +kernel
  unfold thView at a b
  revert h a b
  cases (thermostat thE { thW {} with ord := id } (thStore tieAvail) thEst (Setup.fromFixed [] tieOuts (some 5))).1 with
  | error e => intro _ a; simp [Except.toOption] at a
  | ok x =>
    cases (thermostat thE { thW {} with ord := List.reverse } (thStore tieAvail) thEst
        (Setup.fromFixed [] tieOuts (some 5))).1 with
    | error e => intro _ _ b; simp [Except.toOption] at b
    | ok y =>
      intro h a b
      have h1 := congrArg List.length h.1
      simp only [Except.toOption, Option.map_some, Option.some.injEq] at a b
      have a := congrArg List.length a
      have b := congrArg List.length b
      simp only [List.length_map, List.length_cons, List.length_nil] at h1 a b
      omega

/-- Two assets, each in one UTxO. -/
def keyAvail : List Utxo := [⟨1, 20000000, [⟨7, 5, 1, 2⟩], 0⟩, ⟨2, 30000000, [⟨8, 5, 1, 3⟩], 0⟩]

def keyOuts : List Output := [⟨9, 1000000, [⟨7, 2, 1, 2⟩, ⟨8, 2, 1, 3⟩]⟩]

def keyCfg : Config := { min := 1000000, max := 40000000 }

/-- With two assets the thermostat depends on the order of a hash map even without ties: the first asset's change is
given what is left of the main token at that point, so the changes have other values in the other order. -/
theorem C104_keys_false : ¬ ∀ (k1 k2 : List Token → List Token) (avail : List Utxo) (st : UStore) (est : LE)
    (ins : List Utxo) (outs : List Output) (ch : Option Nat),
    THCase { thW keyCfg with keyOrder := k1 } avail st ins outs →
    THCase { thW keyCfg with keyOrder := k2 } avail st ins outs →
    (∀ t, ∀ u ∈ avail, ∀ w ∈ avail, OnlyAsset t u → OnlyAsset t w → u = w) →
    ∀ r1 r2 e1 e2, (thermostat thE { thW keyCfg with keyOrder := k1 } st est (Setup.fromFixed ins outs ch)).1 = .ok (r1, e1) →
      (thermostat thE { thW keyCfg with keyOrder := k2 } st est (Setup.fromFixed ins outs ch)).1 = .ok (r2, e2) →
      (r1.changes.map (·.value)).Perm (r2.changes.map (·.value)) := by
  intro h
  have hd : ∀ u ∈ keyAvail, DistinctAssets u := by unfold DistinctAssets keyAvail; decide
  have h := h id List.reverse keyAvail (thStore keyAvail) thEst [] keyOuts (some 5)
    (thCase hd (by decide) rfl (by decide +kernel))
    ⟨fun l => List.Perm.refl l, List.reverse_perm, fun l => List.Perm.refl l, thStore_ok hd (by decide), rfl,
      by decide +kernel⟩ (by
        intro t u hu w hw a b
        simp only [keyAvail, List.mem_cons, List.not_mem_nil, or_false] at hu hw
        obtain ⟨x, hx, rfl⟩ := a
        obtain ⟨y, hy, e⟩ := b
        rcases hu with rfl | rfl <;> rcases hw with rfl | rfl
        · rfl
        · cases hx; cases hy; simp at e
        · cases hx; cases hy; simp at e
        · rfl)
  have a : thView thE (thermostat thE { thW keyCfg with keyOrder := id } (thStore keyAvail) thEst
      (Setup.fromFixed [] keyOuts (some 5))) =
      (some ⟨184113, some 184113, [1, 2], [(18824203, [(7, 3)]), (29991684, [(8, 3)])]⟩, []) := by decide +kernel
  have b : thView thE (thermostat thE { thW keyCfg with keyOrder := List.reverse } (thStore keyAvail) thEst
      (Setup.fromFixed [] keyOuts (some 5))) =
      (some ⟨184113, some 184113, [2, 1], [(28824203, [(8, 3)]), (19991684, [(7, 3)])]⟩, []) := by decide +kernel
  obtain ⟨r1, e1, x1, _, _, c1, _⟩ := th_ok a
  obtain ⟨r2, e2, x2, _, _, c2, _⟩ := th_ok b
  have h := h r1 r2 e1 e2 (congrArg Prod.fst x1) (congrArg Prod.fst x2)
  have v1 : r1.changes.map (·.value) = [18824203, 29991684] := by
    have := congrArg (List.map Prod.fst) c1
    simpa [List.map_map, Function.comp_def] using this
  have v2 : r2.changes.map (·.value) = [28824203, 19991684] := by
    have := congrArg (List.map Prod.fst) c2
    simpa [List.map_map, Function.comp_def] using this
  rw [v1, v2] at h
  exact absurd h (by decide +kernel)

end Verif.Props
