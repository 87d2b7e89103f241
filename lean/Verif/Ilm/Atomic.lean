import Verif.Ilm.SharedSim

/-!
# Objects with atomic calls

`AtStep` is the machine of threads that share an object whose calls take effect in one step, between the call and the answer.
`kvEff` is a map from keys to values; `logEff` a list that is appended to and read by position.
-/

namespace Verif.Ilm

open Verif.Fraos

variable {K V : Type} {sys : Bool}

/-- Where a thread is. -/
inductive AtPC (K V : Type) where
  | idle
  | called (c : SCall K V)
  | ready (c : SCall K V) (r : SResp V)

/-- The object and the threads. -/
structure AtState (n : Nat) (σ K V : Type) where
  obj : σ
  pcs : Fin n → AtPC K V

/-- Steps: a call, its effect with its answer or a failure without effect, the answer. -/
inductive AtStep {σ : Type} (eff : σ → SCall K V → Option (SResp V × σ)) (fails : SCall K V → SResp V → Prop) {n : Nat} :
    AtState n σ K V → Option (SEv n K V) → AtState n σ K V → Prop
  | invoke {s : AtState n σ K V} {t : Fin n} {cl : SCall K V} : s.pcs t = .idle →
      AtStep eff fails s (some (.inv t cl)) ⟨s.obj, Function.update s.pcs t (.called cl)⟩
  | act {s : AtState n σ K V} {t : Fin n} {cl : SCall K V} {r : SResp V} {o : σ} : s.pcs t = .called cl →
      eff s.obj cl = some (r, o) → AtStep eff fails s none ⟨o, Function.update s.pcs t (.ready cl r)⟩
  | fail {s : AtState n σ K V} {t : Fin n} {cl : SCall K V} {r : SResp V} : s.pcs t = .called cl → fails cl r →
      AtStep eff fails s none ⟨s.obj, Function.update s.pcs t (.ready cl r)⟩
  | answer {s : AtState n σ K V} {t : Fin n} {cl : SCall K V} {r : SResp V} : s.pcs t = .ready cl r →
      AtStep eff fails s (some (.ret t cl r)) ⟨s.obj, Function.update s.pcs t .idle⟩

/-- A map from keys to values, as the list of what was put into it, newest first. -/
def kvEff [DecidableEq K] (c : Codec K V) (indexed : Bool) (m : List (K × V)) : SCall K V → Option (SResp V × List (K × V))
  | .append k v =>
    if indexed then
      if (c.encK k).isSome ∧ (c.encV v).isSome then some (.done (.ok ()), (k, v) :: m)
      else some (.done (.error .encode), m)
    else some (.done (.error .noIndex), m)
  | .get k => some (.value (keyed c indexed k (m.lookup k)), m)
  | .contains k => some (.flag (keyed c indexed k (m.lookup k).isSome), m)
  | .isEmpty => some (.flag (if indexed then .ok m.isEmpty else .error .noIndex), m)
  | _ => none

/-- A list of keys and values. -/
def logEff (c : Codec K V) (indexed : Bool) (l : List (K × V)) : SCall K V → Option (SResp V × List (K × V))
  | .append k v =>
    if indexed then
      if (c.encK k).isSome ∧ (c.encV v).isSome then some (.done (.ok ()), l ++ [(k, v)])
      else some (.done (.error .encode), l)
    else some (.done (.error .noIndex), l)
  | .item i => some (.item (l[i]?.map (fun x => .ok x.2)), l)
  | .getNext none => some (.value (.ok (l[0]?.map Prod.snd)), l)
  | _ => none

/-- Calls of the map from keys to values. -/
def SCall.kv : SCall K V → Bool
  | .append _ _ | .get _ | .contains _ | .isEmpty => true
  | _ => false

/-- Calls of the list. -/
def SCall.lg : SCall K V → Bool
  | .append _ _ | .item _ | .getNext none => true
  | _ => false

/-- The call of an event. -/
def SEv.call {n : Nat} : SEv n K V → SCall K V
  | .inv _ cl => cl
  | .ret _ cl _ => cl

/-- Threads begin to share an object. -/
def atinit (n : Nat) {σ : Type} (o : σ) : AtState n σ K V := ⟨o, fun _ => .idle⟩

/-- Only appends are refused. -/
theorem refusal_append {c : Codec K V} {sys indexed : Bool} {cl : SCall K V} {r : SResp V} (h : refusal c sys indexed cl r) :
    ∃ k v, cl = .append k v := by
  unfold refusal at h
  split at h
  · exact ⟨_, _, rfl⟩
  · exact h.elim

/-- A refused append answers an error. -/
theorem refusal_ok {c : Codec K V} {sys indexed : Bool} {cl : SCall K V} {r : SResp V} (h : refusal c sys indexed cl r) :
    r ≠ .done (.ok ()) := by
  rintro rfl
  unfold refusal at h
  split at h
  · rename_i he; cases he
  · exact h

/-! ### What always holds of the specification -/

/-- Positions lead to records under their keys. -/
structure SpInv (c : Codec K V) (indexed : Bool) {n : Nat} (s : SpState n K V) : Prop where
  le : s.sh.counted ≤ s.sh.log.length
  ok : ∀ x ∈ s.sh.keys, ∃ v, s.sh.log[x.2]? = some (x.1, v)
  pcs : ∀ t k v i, s.pcs t = .put k v i ∨ s.pcs t = .counted k v i →
    s.sh.log[i]? = some (k, v) ∧ indexed = true ∧ (c.encK k).isSome ∧ (c.encV v).isSome

variable [DecidableEq K]

theorem SpInv.step {c : Codec K V} {indexed : Bool} {n : Nat} {s s' : SpState n K V} {ev : Option (SEv n K V)}
    (h : SpInv c indexed s) (hs : SpStep c sys indexed s ev s') : SpInv c indexed s' := by
  -- a thread moves and is not between its stores
  have quiet : ∀ (t : Fin n) (x : SpPC K V), (∀ k v i, x ≠ .put k v i ∧ x ≠ .counted k v i) →
      SpInv c indexed ⟨s.sh, Function.update s.pcs t x⟩ := by
    intro t x hx
    refine ⟨h.le, h.ok, fun u k v i hu => ?_⟩
    simp only at hu
    rcases hu with hu | hu <;> rcases update_cases hu with ⟨_, he⟩ | ⟨_, he⟩
    · exact absurd he (hx k v i).1
    · exact h.pcs u k v i (.inl he)
    · exact absurd he (hx k v i).2
    · exact h.pcs u k v i (.inr he)
  cases hs with
  | invoke ht => exact quiet _ _ (by simp)
  | look ht hl => exact quiet _ _ (by simp)
  | fail ht hf => exact quiet _ _ (by simp)
  | pass ht _ _ _ => exact quiet _ _ (by simp)
  | follow ht => exact quiet _ _ (by simp)
  | answer ht => exact quiet _ _ (by simp)
  | @put t k v ht hi hk hv hc =>
    refine ⟨?_, ?_, ?_⟩
    · simp only [List.length_append]; omega
    · intro x hx
      obtain ⟨w, hw⟩ := h.ok x hx
      exact ⟨w, prefix_get (List.prefix_append _ _) hw⟩
    · intro u k' v' i' hu
      simp only at hu
      rcases hu with hu | hu <;> rcases update_cases hu with ⟨_, he⟩ | ⟨_, he⟩
      · cases he; exact ⟨by simp, hi, hk, hv⟩
      · have h1 := h.pcs u k' v' i' (.inl he)
        exact ⟨prefix_get (List.prefix_append _ _) h1.1, h1.2⟩
      · cases he
      · have h1 := h.pcs u k' v' i' (.inr he)
        exact ⟨prefix_get (List.prefix_append _ _) h1.1, h1.2⟩
  | @count t k v i ht =>
    refine ⟨le_refl _, h.ok, ?_⟩
    intro u k' v' i' hu
    simp only at hu
    rcases hu with hu | hu <;> rcases update_cases hu with ⟨_, he⟩ | ⟨_, he⟩
    · cases he
    · exact h.pcs u k' v' i' (.inl he)
    · cases he; exact h.pcs t k v i (.inl ht)
    · exact h.pcs u k' v' i' (.inr he)
  | @record t k v i ht =>
    have h1 := h.pcs t k v i (.inr ht)
    refine ⟨h.le, ?_, ?_⟩
    · intro x hx
      rcases List.mem_cons.mp hx with rfl | hx
      · exact ⟨v, h1.1⟩
      · exact h.ok x hx
    · intro u k' v' i' hu
      simp only at hu
      rcases hu with hu | hu <;> rcases update_cases hu with ⟨_, he⟩ | ⟨_, he⟩
      · cases he
      · exact h.pcs u k' v' i' (.inl he)
      · cases he
      · exact h.pcs u k' v' i' (.inr he)

theorem SpInv.exec {c : Codec K V} {indexed : Bool} {n : Nat} {s s' : SpState n K V} {tr : List (SEv n K V)}
    (h : SpInv c indexed s) (hx : Exec (SpStep c sys indexed) s tr s') : SpInv c indexed s' := by
  induction hx with
  | nil => exact h
  | silent _ hs ih => exact ih.step hs
  | event _ hs ih => exact ih.step hs

/-! ### The map from keys to values -/

/-- What was recorded, newest first. -/
def kvOf (S : Shared K V) : List (K × V) := S.keys.filterMap (fun x => S.log[x.2]?.map (fun y => (x.1, y.2)))

theorem kvOf_lookup {S : Shared K V} (hok : ∀ x ∈ S.keys, ∃ v, S.log[x.2]? = some (x.1, v)) (k : K) :
    (kvOf S).lookup k = S.value k := by
  obtain ⟨log, m, keys⟩ := S
  simp only [kvOf, Shared.value] at hok ⊢
  induction keys with
  | nil => rfl
  | cons x xs ih =>
    obtain ⟨v, hv⟩ := hok x (by simp)
    rw [List.filterMap_cons, hv]
    simp only [Option.map_some, List.lookup_cons (a := k) (b := v)]
    rw [List.lookup_cons]
    by_cases hk : k == x.1
    · simp [hk, hv]
    · simp only [hk]
      exact ih (fun y hy => hok y (by simp [hy]))

omit [DecidableEq K] in
theorem kvOf_isEmpty {S : Shared K V} (hok : ∀ x ∈ S.keys, ∃ v, S.log[x.2]? = some (x.1, v)) :
    (kvOf S).isEmpty = S.keys.isEmpty := by
  obtain ⟨log, m, keys⟩ := S
  simp only [kvOf] at hok ⊢
  cases keys with
  | nil => rfl
  | cons x xs =>
    obtain ⟨v, hv⟩ := hok x (by simp)
    rw [List.filterMap_cons, hv]
    rfl

omit [DecidableEq K] in
theorem kvOf_grows {S : Shared K V} (hok : ∀ x ∈ S.keys, ∃ v, S.log[x.2]? = some (x.1, v)) {log : List (K × V)}
    (hl : S.log <+: log) (m : Nat) : kvOf ⟨log, m, S.keys⟩ = kvOf S := by
  obtain ⟨log0, m0, keys⟩ := S
  simp only [kvOf] at hok hl ⊢
  apply List.filterMap_congr
  intro x hx
  obtain ⟨v, hv⟩ := hok x hx
  rw [hv, prefix_get hl hv]

/-! ### Views of the specification -/

/-- The specification, as an object with atomic calls. -/
def viewOf {σ : Type} (obj : Shared K V → σ) (f : SpPC K V → AtPC K V) {n : Nat} (s : SpState n K V) : AtState n σ K V :=
  ⟨obj s.sh, fun t => f (s.pcs t)⟩

section
variable {σ : Type} {obj : Shared K V → σ} {f : SpPC K V → AtPC K V} {eff : σ → SCall K V → Option (SResp V × σ)} {fails : SCall K V → SResp V → Prop} {n : Nat}
  {s : SpState n K V} {t : Fin n} {x y : SpPC K V} {S : Shared K V}

omit [DecidableEq K] in
theorem view_update (y : SpPC K V) : viewOf obj f ⟨S, Function.update s.pcs t y⟩ =
    ⟨obj S, Function.update (viewOf obj f s).pcs t (f y)⟩ := by
  unfold viewOf
  congr 1
  funext u
  by_cases hu : u = t
  · subst hu; simp
  · simp [Function.update_of_ne hu]

omit [DecidableEq K] in
theorem view_stay (hx : s.pcs t = x) (hf : f x = f y) (hS : obj S = obj s.sh) :
    Exec (AtStep eff fails) (viewOf obj f s) [] (viewOf obj f ⟨S, Function.update s.pcs t y⟩) := by
  have : viewOf obj f ⟨S, Function.update s.pcs t y⟩ = viewOf obj f s := by
    rw [view_update, hS, ← hf, ← hx]
    have : Function.update (viewOf obj f s).pcs t (f (s.pcs t)) = (viewOf obj f s).pcs := Function.update_eq_self _ _
    rw [this]
    rfl
  rw [this]
  exact .nil

omit [DecidableEq K] in
theorem view_act {cl : SCall K V} {r : SResp V} (hx : s.pcs t = x) (hf : f x = .called cl) (hy : f y = .ready cl r)
    (he : eff (obj s.sh) cl = some (r, obj S)) :
    Exec (AtStep eff fails) (viewOf obj f s) [] (viewOf obj f ⟨S, Function.update s.pcs t y⟩) := by
  rw [view_update, hy]
  exact .silent .nil (.act (by simp [viewOf, hx, hf]) he)

omit [DecidableEq K] in
theorem view_fail {cl : SCall K V} {r : SResp V} (hx : s.pcs t = x) (hf : f x = .called cl) (hy : f y = .ready cl r)
    (he : fails cl r) (hS : obj S = obj s.sh) :
    Exec (AtStep eff fails) (viewOf obj f s) [] (viewOf obj f ⟨S, Function.update s.pcs t y⟩) := by
  rw [view_update, hy, hS]
  exact .silent .nil (.fail (by simp [viewOf, hx, hf]) he)

omit [DecidableEq K] in
theorem view_inv {cl : SCall K V} (hx : s.pcs t = x) (hf : f x = .idle) (hy : f y = .called cl) :
    Exec (AtStep eff fails) (viewOf obj f s) [.inv t cl] (viewOf obj f ⟨s.sh, Function.update s.pcs t y⟩) := by
  rw [view_update, hy]
  exact .event .nil (.invoke (by simp [viewOf, hx, hf]))

omit [DecidableEq K] in
theorem view_ret {cl : SCall K V} {r : SResp V} (hx : s.pcs t = x) (hf : f x = .ready cl r) (hy : f y = .idle) :
    Exec (AtStep eff fails) (viewOf obj f s) [.ret t cl r] (viewOf obj f ⟨s.sh, Function.update s.pcs t y⟩) := by
  rw [view_update, hy]
  exact .event .nil (.answer (by simp [viewOf, hx, hf]))

end

/-- A thread, as seen by the map from keys to values: an append takes effect when its key is recorded. -/
def kvPc : SpPC K V → AtPC K V
  | .idle => .idle
  | .called cl => if cl.kv then .called cl else .idle
  | .put k v _ => .called (.append k v)
  | .counted k v _ => .called (.append k v)
  | .passed _ _ => .idle
  | .ready cl r => if cl.kv then .ready cl r else .idle

/-- A thread, as seen by the list: an append takes effect when it puts its value at the end. -/
def lgPc : SpPC K V → AtPC K V
  | .idle => .idle
  | .called cl => if cl.lg then .called cl else .idle
  | .put k v _ => .ready (.append k v) (.done (.ok ()))
  | .counted k v _ => .ready (.append k v) (.done (.ok ()))
  | .passed _ _ => .idle
  | .ready cl r => if cl.lg then .ready cl r else .idle

/-- Events of the map from keys to values. -/
def kvEvents {n : Nat} (tr : List (SEv n K V)) : List (SEv n K V) := tr.filter (fun e => e.call.kv)

/-- Events of the list. -/
def lgEvents {n : Nat} (tr : List (SEv n K V)) : List (SEv n K V) := tr.filter (fun e => e.call.lg)

theorem kv_step {c : Codec K V} {indexed : Bool} {n : Nat} {s s' : SpState n K V} {ev : Option (SEv n K V)}
    (h : SpInv c indexed s) (hs : SpStep c sys indexed s ev s') :
    Exec (AtStep (kvEff c indexed) (refusal c sys indexed)) (viewOf kvOf kvPc s) (kvEvents ev.toList) (viewOf kvOf kvPc s') := by
  cases hs with
  | @invoke t cl ht =>
    by_cases hk : cl.kv = true
    · simpa [kvEvents, SEv.call, hk] using view_inv ht rfl (by simp [kvPc, hk])
    · simpa [kvEvents, SEv.call, hk] using view_stay (y := .called cl) ht (by simp [kvPc, hk]) rfl
  | @look t cl r ht hl =>
    simp only [kvEvents, Option.toList_none, List.filter_nil]
    by_cases hk : cl.kv = true
    · refine view_act (cl := cl) (r := r) ht (by simp [kvPc, hk]) (by simp [kvPc, hk]) ?_
      cases cl with
      | append k v =>
        simp only [look] at hl
        simp only [kvEff]
        split at hl
        · rename_i hi
          rw [if_pos hi]
          split at hl
          · cases hl
          · rename_i hn; rw [if_neg hn]; cases hl; rfl
        · rename_i hi
          rw [if_neg hi]; cases hl; rfl
      | get k => simp only [look] at hl; cases hl; simp only [kvEff, kvOf_lookup h.ok]
      | contains k => simp only [look] at hl; cases hl; simp only [kvEff, kvOf_lookup h.ok]
      | isEmpty => simp only [look] at hl; cases hl; simp only [kvEff, kvOf_isEmpty h.ok]
      | _ => simp [SCall.kv] at hk
    · exact view_stay ht (by simp [kvPc, hk]) rfl
  | @fail t cl r ht hf =>
    obtain ⟨k, v, rfl⟩ := refusal_append hf
    exact view_fail (cl := .append k v) (r := r) ht rfl rfl hf rfl
  | @put t k v ht hi hk hv hc => exact view_stay ht (by simp [kvPc, SCall.kv]) (kvOf_grows h.ok (List.prefix_append _ _) _)
  | @count t k v i ht => exact view_stay ht rfl (kvOf_grows h.ok (List.prefix_refl _) _)
  | @record t k v i ht =>
    obtain ⟨h1, h2, h3, h4⟩ := h.pcs t k v i (.inr ht)
    refine view_act (cl := .append k v) (r := .done (.ok ())) ht rfl rfl ?_
    simp [kvEff, h2, h3, h4, kvOf, h1]
  | @pass t k i ht _ _ hl => exact view_stay ht rfl rfl
  | @follow t k i ht => exact view_stay ht rfl rfl
  | @answer t cl r ht =>
    by_cases hk : cl.kv = true
    · simpa [kvEvents, SEv.call, hk] using view_ret (y := .idle) ht (by simp [kvPc, hk]) rfl
    · simpa [kvEvents, SEv.call, hk] using view_stay (y := .idle) ht (by simp [kvPc, hk]) rfl

theorem lg_step {c : Codec K V} {indexed : Bool} {n : Nat} {s s' : SpState n K V} {ev : Option (SEv n K V)}
    (hs : SpStep c sys indexed s ev s') :
    Exec (AtStep (logEff c indexed) (refusal c sys indexed)) (viewOf Shared.log lgPc s) (lgEvents ev.toList) (viewOf Shared.log lgPc s') := by
  cases hs with
  | @invoke t cl ht =>
    by_cases hk : cl.lg = true
    · simpa [lgEvents, SEv.call, hk] using view_inv ht rfl (by simp [lgPc, hk])
    · simpa [lgEvents, SEv.call, hk] using view_stay (y := .called cl) ht (by simp [lgPc, hk]) rfl
  | @look t cl r ht hl =>
    simp only [lgEvents, Option.toList_none, List.filter_nil]
    by_cases hk : cl.lg = true
    · refine view_act (cl := cl) (r := r) ht (by simp [lgPc, hk]) (by simp [lgPc, hk]) ?_
      cases cl with
      | append k v =>
        simp only [look] at hl
        simp only [logEff]
        split at hl
        · rename_i hi
          rw [if_pos hi]
          split at hl
          · cases hl
          · rename_i hn; rw [if_neg hn]; cases hl; rfl
        · rename_i hi
          rw [if_neg hi]; cases hl; rfl
      | item i => simp only [look] at hl; cases hl; rfl
      | getNext k =>
        cases k with
        | none => simp only [look] at hl; cases hl; rfl
        | some k => simp [SCall.lg] at hk
      | _ => simp [SCall.lg] at hk
    · exact view_stay ht (by simp [lgPc, hk]) rfl
  | @fail t cl r ht hf =>
    obtain ⟨k, v, rfl⟩ := refusal_append hf
    exact view_fail (cl := .append k v) (r := r) ht rfl rfl hf rfl
  | @put t k v ht hi hk hv hc =>
    refine view_act (cl := .append k v) (r := .done (.ok ())) ht rfl rfl ?_
    simp [logEff, hi, hk, hv]
  | @count t k v i ht => exact view_stay ht rfl rfl
  | @record t k v i ht => exact view_stay ht rfl rfl
  | @pass t k i ht _ _ hl => exact view_stay ht rfl rfl
  | @follow t k i ht => exact view_stay ht rfl rfl
  | @answer t cl r ht =>
    by_cases hk : cl.lg = true
    · simpa [lgEvents, SEv.call, hk] using view_ret (y := .idle) ht (by simp [lgPc, hk]) rfl
    · simpa [lgEvents, SEv.call, hk] using view_stay (y := .idle) ht (by simp [lgPc, hk]) rfl

/-- The calls of the map from keys to values are atomic. -/
theorem kv_exec {c : Codec K V} {indexed : Bool} {n : Nat} {s s' : SpState n K V} {tr : List (SEv n K V)}
    (h : SpInv c indexed s) (hx : Exec (SpStep c sys indexed) s tr s') :
    Exec (AtStep (kvEff c indexed) (refusal c sys indexed)) (viewOf kvOf kvPc s) (kvEvents tr) (viewOf kvOf kvPc s') := by
  induction hx with
  | nil => exact .nil
  | silent hx hs ih => simpa [kvEvents] using Exec.append ih (kv_step (h.exec hx) hs)
  | event hx hs ih =>
    have := Exec.append ih (kv_step (h.exec hx) hs)
    simpa [kvEvents, List.filter_append] using this

/-- The calls of the list are atomic. -/
theorem lg_exec {c : Codec K V} {indexed : Bool} {n : Nat} {s s' : SpState n K V} {tr : List (SEv n K V)}
    (hx : Exec (SpStep c sys indexed) s tr s') :
    Exec (AtStep (logEff c indexed) (refusal c sys indexed)) (viewOf Shared.log lgPc s) (lgEvents tr) (viewOf Shared.log lgPc s') := by
  induction hx with
  | nil => exact .nil
  | silent hx hs ih => simpa [lgEvents] using Exec.append ih (lg_step hs)
  | event hx hs ih =>
    have := Exec.append ih (lg_step hs)
    simpa [lgEvents, List.filter_append] using this

end Verif.Ilm
