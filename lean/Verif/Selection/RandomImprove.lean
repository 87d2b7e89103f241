import Verif.Selection.Common
import Mathlib.Data.List.Sort
import Mathlib.Data.List.Dedup

/-!
# Random-improve selection

Models `/repo/utxo-selection/src/algorithms/random_improve.rs`. `rnd k % n` is the result of the `k`-th call of
`gen_range(0..n)`: with `rnd` arbitrary every outcome is covered. An error comes with the value of
`available_indices` at that moment, since the code changes it in place. The address of an `Output` stands for
the address and the text `extra` of the `UTxOBuilder`: both are compared when outputs are looked up.
-/

namespace Verif.Selection.Random

open Verif Verif.Core

/-- `RandomImprove`, random_improve.rs:12-15. `indices` is the `BTreeSet`, ascending. -/
structure RI where
  inputs : List Utxo
  indices : List Nat

/-- `try_from`, random_improve.rs:30-40 (and 17-28 with the values of a store). -/
def RI.ofList (l : List Utxo) : RI := ⟨l, List.range l.length⟩

/-- `set_available_inputs`, random_improve.rs:46-53: the new set of indices is not kept. -/
def RI.setAvailable (s : RI) (l : List Utxo) : RI := { s with inputs := l }

/-- Indexing, which panics out of bounds. -/
def at' (inputs : List Utxo) (i : Nat) : Except SelErr Utxo :=
  match inputs[i]? with
  | some u => .ok u
  | none => .error .panic

/-- Indexing with every element of a list. -/
def atAll (inputs : List Utxo) : List Nat → Except SelErr (List Utxo)
  | [] => .ok []
  | i :: is =>
    match at' inputs i with
    | .error e => .error e
    | .ok u =>
      match atAll inputs is with
      | .error e => .error e
      | .ok us => .ok (u :: us)

/-- `available_inputs`, random_improve.rs:179-184. -/
def RI.available (s : RI) : Except SelErr (List Utxo) := atAll s.inputs s.indices

/-- `BTreeSet::insert`. -/
def insertIx (i : Nat) (l : List Nat) : List Nat := if i ∈ l then l else l.orderedInsert (· ≤ ·) i

/-- `Vec::swap_remove`: what is left. -/
def swapRemove (v : List Nat) (i : Nat) : List Nat := (v.set i (v.getLastD 0)).dropLast

/-- `value.raw().to_u64()`: truncation; nothing for a negative or too large number. -/
def toU64 (q : ℚ) : Option Nat :=
  if q < 0 then none
  else if q.floor.toNat < 2 ^ 64 then some q.floor.toNat else none

/-- `k * m` on `u64`: with `wraps` the release build, which wraps; otherwise a panic. -/
def mulU64 (wraps : Bool) (k m : Nat) : Except SelErr Nat :=
  if k * m < 2 ^ 64 then .ok (k * m)
  else if wraps then .ok (k * m % 2 ^ 64) else .error .panic

/-- `should_improve`, random_improve.rs:271-284. It compares amounts of the main token, whatever the asset. -/
def shouldImprove (wraps : Bool) (input new : Utxo) (o : Output) : Except SelErr Bool :=
  match toU64 input.value, toU64 new.value, toU64 o.value with
  | some cur, some nw, some mn =>
    match mulU64 wraps 2 mn, mulU64 wraps 3 mn with
    | .ok ideal, .ok mx =>
      .ok (decide (((ideal : Int) - nw).natAbs < ((ideal : Int) - cur).natAbs) && decide (nw < mx))
    | _, _ => .error .panic
  | _, _, _ => .error .panic

/-- The variables of the first two phases. `k` counts the random numbers drawn. -/
structure Pick where
  relevant : List Nat
  avail : List Nat
  assoc : AMap Output (List Nat)
  k : Nat

/-- An error and the available indices at that moment. -/
abbrev Fail := SelErr × List Nat

/-- `associated_indices.entry(output).or_default()`. -/
def Pick.of (p : Pick) (o : Output) : List Nat := (p.assoc.get o).getD []

/-- `while added < needed`, random_improve.rs:243-257. -/
def coverLoop (rnd : Nat → Nat) (inputs : List Utxo) (amt : Utxo → Option ℚ) (o : Output) (needed : ℚ) :
    Nat → ℚ → Pick → Except Fail Pick
  | fuel, added, p =>
    if added < needed then
      if p.relevant = [] then .error (.noInput, p.avail)
      else
        match fuel with
        | 0 => .error (.fuel, p.avail)
        | fuel + 1 =>
          let r := rnd p.k % p.relevant.length
          let i := p.relevant.getD r 0
          let p' : Pick :=
            { relevant := swapRemove p.relevant r, avail := p.avail.erase i,
              assoc := p.assoc.insert o (p.of o ++ [i]), k := p.k + 1 }
          match at' inputs i with
          | .error e => .error (e, p.avail.erase i)
          | .ok u =>
            match amt u with
            | none => .error (.panic, p.avail.erase i)
            | some a => coverLoop rnd inputs amt o needed fuel (added + a) p'
    else .ok p

/-- `for output in outputs.iter().rev()`, random_improve.rs:224-258; the list is already reversed. -/
def coverAll (rnd : Nat → Nat) (inputs : List Utxo) (amt : Utxo → Option ℚ) (want : Output → Option ℚ) :
    List Output → Pick → Except Fail Pick
  | [], p => .ok p
  | o :: os, p =>
    match want o with
    | none => .error (.other, p.avail)
    | some needed =>
      match coverLoop rnd inputs amt o needed p.relevant.length 0 p with
      | .error e => .error e
      | .ok p' => coverAll rnd inputs amt want os p'

/-- `for i in associated.iter_mut()`, random_improve.rs:266-290: the new list of the output. -/
def improveLoop (wraps : Bool) (rnd : Nat → Nat) (inputs : List Utxo) (o : Output) :
    List Nat → Pick → Except Fail (List Nat × Pick)
  | [], p => .ok ([], p)
  | i :: is, p =>
    let r := rnd p.k % p.relevant.length
    let j := p.relevant.getD r 0
    match at' inputs i, at' inputs j with
    | .ok a, .ok b =>
      match shouldImprove wraps a b o with
      | .error e => .error (e, p.avail)
      | .ok true =>
        match improveLoop wraps rnd inputs o is
          { p with avail := (insertIx i p.avail).erase j, relevant := p.relevant.set r i, k := p.k + 1 } with
        | .error e => .error e
        | .ok (l, p') => .ok (j :: l, p')
      | .ok false =>
        match improveLoop wraps rnd inputs o is { p with k := p.k + 1 } with
        | .error e => .error e
        | .ok (l, p') => .ok (i :: l, p')
    | _, _ => .error (.panic, p.avail)

/-- `for output in outputs.iter_mut()`, random_improve.rs:262-291. -/
def improveAll (wraps : Bool) (rnd : Nat → Nat) (inputs : List Utxo) : List Output → Pick → Except Fail Pick
  | [], p => .ok p
  | o :: os, p =>
    match p.assoc.get o with
    | none => .error (.other, p.avail)
    | some l =>
      match improveLoop wraps rnd inputs o l p with
      | .error e => .error e
      | .ok (l', p') => improveAll wraps rnd inputs os { p' with assoc := p'.assoc.insert o l' }

/-- The balances: `added` are the indices added, in order, repetitions included. -/
structure Books (σ : Type) where
  est : σ
  assets : AssetMap
  input : ℚ
  fee : ℚ
  added : List Nat

/-- One input is added, random_improve.rs:301-316 and 144-159. -/
def addInput {σ : Type} (E : Estimator σ) (inputs : List Utxo) (i : Nat) (b : Books σ) : Except SelErr (Books σ) :=
  match at' inputs i with
  | .error e => .error e
  | .ok u =>
    match E.feeIn b.est u with
    | .error e => .error e
    | .ok f =>
      match E.addIn b.est u with
      | .error e => .error e
      | .ok est' =>
        .ok { est := est', assets := u.assets.foldl addAsset b.assets, input := b.input + u.value,
              fee := b.fee + f, added := b.added ++ [i] }

/-- A list of inputs is added. -/
def addInputs {σ : Type} (E : Estimator σ) (inputs : List Utxo) : List Nat → Books σ → Except SelErr (Books σ)
  | [], b => .ok b
  | i :: is, b =>
    match addInput E inputs i b with
    | .error e => .error e
    | .ok b' => addInputs E inputs is b'

/-- `for output in outputs.iter()`, random_improve.rs:295-318. -/
def addAll {σ : Type} (E : Estimator σ) (inputs : List Utxo) (p : Pick) : List Output → Books σ → Except SelErr (Books σ)
  | [], b => .ok b
  | o :: os, b =>
    match p.assoc.get o with
    | none => .error .other
    | some l =>
      match addInputs E inputs l b with
      | .error e => .error e
      | .ok b' => addAll E inputs p os b'

/-- The indices for which `by_input` gives something, random_improve.rs:211-215. -/
def relevantOf (inputs : List Utxo) (amt : Utxo → Option ℚ) : List Nat → Except SelErr (List Nat)
  | [] => .ok []
  | i :: is =>
    match at' inputs i with
    | .error e => .error e
    | .ok u =>
      match relevantOf inputs amt is with
      | .error e => .error e
      | .ok l => .ok (if (amt u).isSome then i :: l else l)

/-- The outputs concerned, in ascending order of the amount wanted, random_improve.rs:218-223. -/
def outputsFor (want : Output → Option ℚ) (outs : List Output) : List Output :=
  (outs.filter (fun o => (want o).isSome)).insertionSort (fun a b => (want a).getD 0 ≤ (want b).getD 0)

/-- `select_input_and_update_balances`, random_improve.rs:188-321. -/
def selectPass {σ : Type} (wraps : Bool) (rnd : Nat → Nat) (E : Estimator σ) (inputs : List Utxo)
    (outs : List Output) (amt : Utxo → Option ℚ) (want : Output → Option ℚ) (avail : List Nat) (k : Nat)
    (b : Books σ) : Except Fail (List Nat × Nat × Books σ) :=
  match relevantOf inputs amt avail with
  | .error e => .error (e, avail)
  | .ok rel =>
    let os := outputsFor want outs
    match coverAll rnd inputs amt want os.reverse ⟨rel, avail, [], k⟩ with
    | .error e => .error e
    | .ok p1 =>
      match if p1.relevant = [] then .ok p1 else improveAll wraps rnd inputs os p1 with
      | .error e => .error e
      | .ok p2 =>
        match addAll E inputs p2 os b with
        | .error e => .error (e, p2.avail)
        | .ok b' => .ok (p2.avail, p2.k, b')

/-- `assets.iter().find(|asset| asset.fingerprint == token).map(|asset| asset.quantity)`,
random_improve.rs:96-109. -/
def firstOf (t : Token) (as : List Asset) : Option ℚ := (as.find? (fun a => a.fingerprint = t)).map (·.quantity)

/-- The passes for the assets, random_improve.rs:86-114. `fmt policy name` is the token written
`policy:name`. -/
def assetPasses {σ : Type} (wraps : Bool) (rnd : Nat → Nat) (fmt : Nat → Nat → Token) (E : Estimator σ)
    (inputs : List Utxo) (outs : List Output) :
    List (Nat × Nat) → List Nat → Nat → Books σ → Except Fail (List Nat × Nat × Books σ)
  | [], avail, k, b => .ok (avail, k, b)
  | (pol, name) :: rest, avail, k, b =>
    match selectPass wraps rnd E inputs outs (fun u => firstOf (fmt pol name) u.assets)
      (fun o => firstOf (fmt pol name) o.assets) avail k b with
    | .error e => .error e
    | .ok (avail', k', b') => assetPasses wraps rnd fmt E inputs outs rest avail' k' b'

/-- Phase 3, random_improve.rs:134-160. -/
def topUp {σ : Type} (rnd : Nat → Nat) (E : Estimator σ) (inputs : List Utxo) (output : ℚ) :
    Nat → List Nat → Nat → Books σ → Except Fail (List Nat × Books σ)
  | fuel, avail, k, b =>
    if b.input < output then
      if avail = [] then .error (.noInput, avail)
      else
        match fuel with
        | 0 => .error (.fuel, avail)
        | fuel + 1 =>
          let i := avail.getD (rnd k % avail.length) 0
          match addInput E inputs i b with
          | .error e => .error (e, avail.erase i)
          | .ok b' => topUp rnd E inputs output fuel (avail.erase i) (k + 1) b'
    else .ok (avail, b)

/-- The assets asked for, by policy and name, random_improve.rs:74-84. -/
def wanted (m : AssetMap) : List (Nat × Nat) :=
  (m.map (fun kv => (kv.2.policy, kv.2.name))).insertionSort
    (fun a b => a.1 < b.1 ∨ (a.1 = b.1 ∧ a.2 ≤ b.2))

/-- `RandomImprove::select_inputs`, random_improve.rs:55-177. `ord` is the order in which the hash set of the
chosen indices lists them. -/
def RI.select {σ : Type} (wraps : Bool) (rnd : Nat → Nat) (fmt : Nat → Nat → Token) (ord : List Nat → List Nat)
    (E : Estimator σ) (s : RI) (est : σ) (io : Setup) : Except SelErr (Result × σ) × RI :=
  match E.minFee est with
  | .error e => (.error e, s)
  | .ok fee =>
    let b0 : Books σ := ⟨est, io.inputAssets, io.inputBalance, fee, []⟩
    match assetPasses wraps rnd fmt E s.inputs io.fixedOutputs (wanted io.outputAssets) s.indices 0 b0 with
    | .error (e, av) => (.error e, { s with indices := av })
    | .ok (av1, k1, b1) =>
      match selectPass wraps rnd E s.inputs io.fixedOutputs (fun u => some u.value) (fun o => some o.value)
        av1 k1 b1 with
      | .error (e, av) => (.error e, { s with indices := av })
      | .ok (av2, k2, b2) =>
        match topUp rnd E s.inputs io.outputBalance av2.length av2 k2 b2 with
        | .error (e, av) => (.error e, { s with indices := av })
        | .ok (av3, b3) =>
          match atAll s.inputs (ord b3.added.dedup) with
          | .error e => (.error e, { s with indices := av3 })
          | .ok chosen =>
            (.ok ({ inputBalance := b3.input, inputAssets := b3.assets,
                    outputBalance := io.outputBalance, outputAssets := io.outputAssets,
                    fixedInputs := io.fixedInputs, fixedOutputs := io.fixedOutputs,
                    chosen := chosen, changes := [], fee := b3.fee }, b3.est), { s with indices := av3 })

end Verif.Selection.Random
