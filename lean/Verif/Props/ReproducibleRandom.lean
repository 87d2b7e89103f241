import Verif.Props.Reproducible
import Verif.Props.RandomImprove

/-!
# C104 for random-improve

Random-improve draws random numbers; given the numbers drawn, `rnd`, two runs are compared in which the hash map of the
assets asked for and the hash set of the chosen indices list their entries in other orders.
-/

namespace Verif.Props

open Verif Verif.Core Verif.Selection Verif.Selection.Random

variable {σ : Type} {E : Estimator σ}

instance : IsTrans (Nat × Nat) (fun a b => a.1 < b.1 ∨ (a.1 = b.1 ∧ a.2 ≤ b.2)) :=
  ⟨fun a b c h1 h2 => by rcases h1 with h1 | h1 <;> rcases h2 with h2 | h2 <;> omega⟩

instance : Std.Total (fun (a b : Nat × Nat) => a.1 < b.1 ∨ (a.1 = b.1 ∧ a.2 ≤ b.2)) :=
  ⟨fun a b => by omega⟩

theorem wanted_perm {m1 m2 : AssetMap} (h : m1.Perm m2) : wanted m1 = wanted m2 := by
  unfold wanted
  refine List.Perm.eq_of_pairwise (le := fun a b => a.1 < b.1 ∨ (a.1 = b.1 ∧ a.2 ≤ b.2)) ?_
    (List.pairwise_insertionSort _ _) (List.pairwise_insertionSort _ _)
    ((List.perm_insertionSort _ _).trans ((h.map _).trans (List.perm_insertionSort _ _).symm))
  rintro ⟨a, b⟩ ⟨c, d⟩ _ _ h1 h2
  simp only [Prod.mk.injEq] at *
  omega

theorem atAll_ok {inputs : List Utxo} : ∀ {is : List Nat} {us : List Utxo},
    atAll inputs is = .ok us ↔ is.map (inputs[·]?) = us.map some
  | [], us => by
    simp only [atAll, List.map_nil, Except.ok.injEq]
    constructor
    · rintro rfl; rfl
    · intro h; simpa using h.symm
  | i :: is, us => by
    simp only [atAll, at']
    cases hi : inputs[i]? with
    | none =>
      simp only [List.map_cons, hi, reduceCtorEq, false_iff]
      intro h
      cases us <;> simp at h
    | some u =>
      simp only [List.map_cons, hi]
      cases hr : atAll inputs is with
      | error e =>
        simp only [reduceCtorEq, false_iff]
        intro h
        cases us with
        | nil => simp at h
        | cons w us =>
          simp only [List.map_cons, List.cons.injEq] at h
          rw [atAll_ok.2 h.2] at hr
          cases hr
      | ok ws =>
        have ih := atAll_ok.1 hr
        simp only [Except.ok.injEq]
        rw [ih]
        constructor
        · rintro rfl; rfl
        · intro h
          cases us with
          | nil => simp at h
          | cons w us =>
            simp only [List.map_cons, List.cons.injEq, Option.some.injEq] at h
            rw [h.1, (List.map_injective_iff.2 (Option.some_injective _)) h.2]

theorem atAll_error {inputs : List Utxo} {e : SelErr} : ∀ {is : List Nat}, atAll inputs is = .error e → e = .panic
  | i :: is, h => by
    simp only [atAll, at'] at h
    cases hi : inputs[i]? with
    | none => rw [hi] at h; cases h; rfl
    | some u =>
      simp only [hi] at h
      cases hr : atAll inputs is with
      | error e' => rw [hr] at h; cases h; exact atAll_error hr
      | ok us => rw [hr] at h; cases h

theorem atAll_perm {inputs : List Utxo} {is js : List Nat} (h : is.Perm js) {us : List Utxo}
    (hu : atAll inputs is = .ok us) : ∃ ws, atAll inputs js = .ok ws ∧ us.Perm ws := by
  have h1 := atAll_ok.1 hu
  have h2 : (js.map (inputs[·]?)).Perm (us.map some) := h1 ▸ (h.map _).symm
  have h3 : ∃ ws, js.map (inputs[·]?) = ws.map some ∧ us.Perm ws := by
    have hs : ∀ l : List (Option Utxo), (∀ o ∈ l, o.isSome) → l = (l.filterMap id).map some := by
      intro l
      induction l with
      | nil => intro _; rfl
      | cons o l ih =>
        intro h
        have ho := h o (by simp)
        cases o with
        | none => simp at ho
        | some u => simpa using ih (fun o ho => h o (by simp [ho]))
    refine ⟨_, hs _ (fun o ho => ?_), ?_⟩
    · obtain ⟨u, _, rfl⟩ := List.mem_map.1 (h2.mem_iff.1 ho)
      rfl
    · have := (h2.filterMap id).symm
      simpa [List.filterMap_map, Function.comp_def] using this
  obtain ⟨ws, h4, h5⟩ := h3
  exact ⟨ws, atAll_ok.2 h4, h5⟩

/-- Answers with which the caller sees the same, but for the order of what hash maps list: the same error, or the same
balances and fee, the same chosen UTxOs and the same estimator. -/
def SeenReordered (x y : Except SelErr (Result × σ)) : Prop :=
  match x, y with
  | .ok (r, e), .ok (r', e') => r.chosen.Perm r'.chosen ∧ r.outputAssets.Perm r'.outputAssets ∧
      { r with chosen := [], outputAssets := [] } = { r' with chosen := [], outputAssets := [] } ∧ e = e'
  | .error e, .error e' => e = e'
  | _, _ => False

/-- Random-improve: given the random numbers, neither the order of the hash map of the assets asked for nor that of the
hash set of the chosen indices changes the answer or what is left. -/
theorem C104_random (wraps : Bool) (rnd : Nat → Nat) (fmt : Nat → Nat → Token) {ord1 ord2 : List Nat → List Nat}
    (ho1 : ∀ l, (ord1 l).Perm l) (ho2 : ∀ l, (ord2 l).Perm l) (s : RI) (est : σ) (io : Setup) {outs : AssetMap}
    (hp : io.outputAssets.Perm outs) :
    SeenReordered (s.select wraps rnd fmt ord1 E est io).1
      (s.select wraps rnd fmt ord2 E est { io with outputAssets := outs }).1 ∧
    (s.select wraps rnd fmt ord1 E est io).2 = (s.select wraps rnd fmt ord2 E est { io with outputAssets := outs }).2 := by
  unfold RI.select
  dsimp only
  rw [← wanted_perm hp]
  cases E.minFee est with
  | error e => exact ⟨rfl, rfl⟩
  | ok fee =>
    dsimp only
    cases assetPasses wraps rnd fmt E s.inputs io.fixedOutputs (wanted io.outputAssets) s.indices 0
      ⟨est, io.inputAssets, io.inputBalance, fee, []⟩ with
    | error x => exact ⟨rfl, rfl⟩
    | ok x =>
      dsimp only
      cases selectPass wraps rnd E s.inputs io.fixedOutputs (fun u => some u.value) (fun o => some o.value)
        x.1 x.2.1 x.2.2 with
      | error y => exact ⟨rfl, rfl⟩
      | ok y =>
        dsimp only
        cases topUp rnd E s.inputs io.outputBalance y.1.length y.1 y.2.1 y.2.2 with
        | error z => exact ⟨rfl, rfl⟩
        | ok z =>
          dsimp only
          have hord : (ord1 z.2.added.dedup).Perm (ord2 z.2.added.dedup) := (ho1 _).trans (ho2 _).symm
          cases h1 : atAll s.inputs (ord1 z.2.added.dedup) with
          | ok us =>
            obtain ⟨ws, h2, h3⟩ := atAll_perm hord h1
            rw [h2]
            exact ⟨⟨h3, hp, rfl, rfl⟩, rfl⟩
          | error e =>
            cases h2 : atAll s.inputs (ord2 z.2.added.dedup) with
            | ok ws =>
              obtain ⟨us, h3, _⟩ := atAll_perm hord.symm h2
              rw [h3] at h1; cases h1
            | error e' => exact ⟨(atAll_error h1).trans (atAll_error h2).symm, rfl⟩

/-- The assets are held by one UTxO each; the third one pays the main token. -/
def reAvail : List Utxo := keyAvail ++ [⟨3, 5000000, [], 0⟩]

def reFmt (pol name : Nat) : Token := if (pol, name) = (1, 2) then 7 else 8

example : riView ((RI.ofList reAvail).select false id reFmt id (flatEstimator 1 1 0) ()
    (Setup.fromFixed [] keyOuts (some 5))) = (some (55000000, 5, 4, [1, 2, 3]), []) := by decide +kernel

/-- Both assets listed in the other order, and the chosen indices too. -/
example : let io := Setup.fromFixed [] keyOuts (some 5)
    ∃ r r', ((RI.ofList reAvail).select false id reFmt id (flatEstimator 1 1 0) () io).1 = .ok (r, ()) ∧
      ((RI.ofList reAvail).select false id reFmt List.reverse (flatEstimator 1 1 0) ()
        { io with outputAssets := io.outputAssets.reverse }).1 = .ok (r', ()) ∧ r.chosen.Perm r'.chosen ∧ r.fee = r'.fee := by
  intro io
  obtain ⟨r, e1, _⟩ := ri_ok (show riView ((RI.ofList reAvail).select false id reFmt id (flatEstimator 1 1 0) () io) =
    (some (55000000, 5, 4, [1, 2, 3]), []) by decide +kernel)
  have h := (C104_random (E := flatEstimator 1 1 0) false id reFmt (ord1 := id) (fun l => .refl l)
    List.reverse_perm (RI.ofList reAvail) () io (List.reverse_perm io.outputAssets).symm).1
  rw [congrArg Prod.fst e1] at h
  dsimp only at h
  generalize ((RI.ofList reAvail).select false id reFmt List.reverse (flatEstimator 1 1 0) ()
    { io with outputAssets := io.outputAssets.reverse }).1 = y at h ⊢
  cases y with
  | error e => exact h.elim
  | ok y =>
    refine ⟨r, y.1, congrArg Prod.fst e1, rfl, h.1, ?_⟩
    have h2 := h.2.2.1
    simp only [Result.mk.injEq] at h2
    tauto

end Verif.Props
