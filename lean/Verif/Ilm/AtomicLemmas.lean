import Verif.Ilm.Atomic
import Mathlib.Algebra.Order.Group.Multiset

/-! # What runs of the specifications guarantee -/

namespace Verif.Ilm

open Verif.Fraos

variable {K V : Type} {sys : Bool}

/-! ### The map from keys to values -/

section kv
variable [DecidableEq K]

/-- What `kvEff` does to the map. -/
theorem kvEff_cases {c : Codec K V} {indexed : Bool} {m m' : List (K × V)} {cl : SCall K V} {r : SResp V}
    (h : kvEff c indexed m cl = some (r, m')) :
    m' = m ∨ ∃ k v, cl = .append k v ∧ m' = (k, v) :: m ∧ r = .done (.ok ()) := by
  cases cl with
  | append k v =>
    simp only [kvEff] at h
    split at h
    · split at h
      · cases h; exact .inr ⟨k, v, rfl, rfl, rfl⟩
      · cases h; exact .inl rfl
    · cases h; exact .inl rfl
  | get k => cases h; exact .inl rfl
  | contains k => cases h; exact .inl rfl
  | isEmpty => cases h; exact .inl rfl
  | _ => cases h

/-- Values come from calls. -/
structure KvInv (m0 : List (K × V)) {n : Nat} (tr : List (SEv n K V)) (s : AtState n (List (K × V)) K V) : Prop where
  obj : ∀ x ∈ s.obj, x ∈ m0 ∨ ∃ u, SEv.inv u (.append x.1 x.2) ∈ tr
  pcs : ∀ t k v, s.pcs t = .called (.append k v) → SEv.inv t (.append k v) ∈ tr
  got : ∀ t k v, s.pcs t = .ready (.get k) (.value (.ok (some v))) → (k, v) ∈ s.obj

theorem lookup_mem_kv {m : List (K × V)} {k : K} {v : V} (h : m.lookup k = some v) : (k, v) ∈ m := by
  induction m with
  | nil => cases h
  | cons x xs ih =>
    rw [List.lookup_cons] at h
    by_cases hk : k == x.1
    · simp only [hk] at h
      cases h
      rw [eq_of_beq hk]; simp
    · simp only [hk] at h
      simp [ih h]

theorem KvInv.step {c : Codec K V} {indexed : Bool} {m0 : List (K × V)} {n : Nat} {tr : List (SEv n K V)}
    {s s' : AtState n (List (K × V)) K V} {ev : Option (SEv n K V)} (h : KvInv m0 tr s)
    (hs : AtStep (kvEff c indexed) (refusal c sys indexed) s ev s') : KvInv m0 (tr ++ ev.toList) s' := by
  have hobj : ∀ x ∈ s.obj, x ∈ m0 ∨ ∃ u, SEv.inv u (.append x.1 x.2) ∈ tr ++ ev.toList := by
    intro x hx
    rcases h.obj x hx with h1 | ⟨u, h1⟩
    · exact .inl h1
    · exact .inr ⟨u, List.mem_append_left _ h1⟩
  have hpcs : ∀ t k v, s.pcs t = .called (.append k v) → SEv.inv t (.append k v) ∈ tr ++ ev.toList :=
    fun t k v ht => List.mem_append_left _ (h.pcs t k v ht)
  cases hs with
  | @invoke t cl ht =>
    refine ⟨hobj, ?_, ?_⟩
    · intro u k v hu
      rcases update_cases hu with ⟨rfl, he⟩ | ⟨_, he⟩
      · cases he; simp
      · exact hpcs u k v he
    · intro u k v hu
      rcases update_cases hu with ⟨rfl, he⟩ | ⟨_, he⟩
      · cases he
      · exact h.got u k v he
  | @act t cl r o ht he =>
    have hsub : ∀ x ∈ s.obj, x ∈ o := by
      rcases kvEff_cases he with rfl | ⟨k, v, _, rfl, _⟩
      · exact fun _ h => h
      · exact fun _ h => List.mem_cons_of_mem _ h
    refine ⟨?_, ?_, ?_⟩
    · rcases kvEff_cases he with rfl | ⟨k, v, rfl, rfl, _⟩
      · exact hobj
      · intro x hx
        rcases List.mem_cons.mp hx with rfl | hx
        · exact .inr ⟨t, hpcs t _ _ ht⟩
        · exact hobj x hx
    · intro u k v hu
      rcases update_cases hu with ⟨rfl, he⟩ | ⟨_, he⟩
      · cases he
      · exact hpcs u k v he
    · intro u k v hu
      rcases update_cases hu with ⟨rfl, he'⟩ | ⟨_, he'⟩
      · cases he'
        simp only [kvEff, Option.some.injEq, Prod.mk.injEq, SResp.value.injEq] at he
        obtain ⟨h1, rfl⟩ := he
        unfold keyed at h1
        split at h1
        · split at h1
          · exact lookup_mem_kv (Except.ok.inj h1)
          · cases h1
        · cases h1
      · exact hsub _ (h.got u k v he')
  | @fail t cl r ht hf =>
    obtain ⟨k0, v0, rfl⟩ := refusal_append hf
    refine ⟨hobj, ?_, ?_⟩
    · intro u k v hu
      rcases update_cases hu with ⟨rfl, he⟩ | ⟨_, he⟩
      · cases he
      · exact hpcs u k v he
    · intro u k v hu
      rcases update_cases hu with ⟨rfl, he⟩ | ⟨_, he⟩
      · cases he
      · exact h.got u k v he
  | @answer t cl r ht =>
    refine ⟨hobj, ?_, ?_⟩
    · intro u k v hu
      rcases update_cases hu with ⟨rfl, he⟩ | ⟨_, he⟩
      · cases he
      · exact hpcs u k v he
    · intro u k v hu
      rcases update_cases hu with ⟨rfl, he⟩ | ⟨_, he⟩
      · cases he
      · exact h.got u k v he

theorem kv_reads {c : Codec K V} {indexed : Bool} {m0 : List (K × V)} {n : Nat} {tr1 tr2 : List (SEv n K V)}
    {s : AtState n (List (K × V)) K V} {t : Fin n} {k : K} {v : V}
    (hx : Exec (AtStep (kvEff c indexed) (refusal c sys indexed)) (atinit n m0) (tr1 ++ .ret t (.get k) (.value (.ok (some v))) :: tr2) s) :
    (k, v) ∈ m0 ∨ ∃ u, SEv.inv u (.append k v) ∈ tr1 := by
  obtain ⟨s1, s2, h1, h2, _⟩ := Exec.at hx
  have hi : KvInv m0 tr1 s1 := Exec.invariant (P := fun tr s => KvInv m0 tr s)
    ⟨fun x hx => .inl hx, (by intro t k v h; cases h), (by intro t k v h; cases h)⟩ (fun _ _ _ _ h hs => h.step hs) h1
  cases h2 with
  | answer ht => exact hi.obj (k, v) (hi.got t k v ht)

/-- Under a key that has a value there will be a value. -/
theorem kv_keeps {c : Codec K V} {indexed : Bool} {n : Nat} {s s' : AtState n (List (K × V)) K V} {tr : List (SEv n K V)}
    (hx : Exec (AtStep (kvEff c indexed) (refusal c sys indexed)) s tr s') {k : K} (h : (s.obj.lookup k).isSome) : (s'.obj.lookup k).isSome := by
  refine Exec.invariant (P := fun _ s => (s.obj.lookup k).isSome) h ?_ hx
  intro _ s _ s' h hs
  cases hs with
  | invoke ht => exact h
  | answer ht => exact h
  | fail ht _ => exact h
  | act ht he =>
    rcases kvEff_cases he with rfl | ⟨k', v, _, rfl, _⟩
    · exact h
    · simp only [List.lookup_cons]
      split <;> simp_all

/-- A thread that reads a key which has a value. -/
theorem kv_sees {c : Codec K V} {indexed : Bool} {n : Nat} {s s' : AtState n (List (K × V)) K V} {tr : List (SEv n K V)}
    (hx : Exec (AtStep (kvEff c indexed) (refusal c sys indexed)) s tr s') {k : K} {u : Fin n} (h : (s.obj.lookup k).isSome)
    (hu : s.pcs u = .called (.get k)) (htr : ∀ e ∈ tr, e.tid ≠ u) :
    s'.pcs u = .called (.get k) ∨ ∃ v, s'.pcs u = .ready (.get k) (.value (keyed c indexed k (some v))) := by
  suffices H : (s'.obj.lookup k).isSome ∧ (s'.pcs u = .called (.get k) ∨
      ∃ v, s'.pcs u = .ready (.get k) (.value (keyed c indexed k (some v)))) from H.2
  refine Exec.invariant (P := fun tr s => (∀ e ∈ tr, e.tid ≠ u) → (s.obj.lookup k).isSome ∧ (s.pcs u = .called (.get k) ∨
      ∃ v, s.pcs u = .ready (.get k) (.value (keyed c indexed k (some v))))) (fun _ => ⟨h, .inl hu⟩) ?_ hx htr
  intro tr s ev s' ih hs htr
  obtain ⟨h1, h2⟩ := ih (fun e he => htr e (List.mem_append_left _ he))
  refine ⟨kv_keeps (tr := ev.toList) (by cases ev with
    | none => exact .silent .nil hs
    | some e => exact .event .nil hs) h1, ?_⟩
  cases hs with
  | @invoke t cl ht =>
    have : u ≠ t := fun h => htr (.inv t cl) (by simp) h.symm
    simpa [Function.update_of_ne this] using h2
  | @answer t cl r ht =>
    have : u ≠ t := fun h => htr (.ret t cl r) (by simp) h.symm
    simpa [Function.update_of_ne this] using h2
  | @fail t cl r ht hf =>
    obtain ⟨k0, v0, rfl⟩ := refusal_append hf
    have : u ≠ t := by
      rintro rfl
      rw [ht] at h2
      rcases h2 with h2 | ⟨v, h2⟩ <;> cases h2
    simpa [Function.update_of_ne this] using h2
  | @act t cl r o ht he =>
    by_cases hut : u = t
    · subst hut
      rw [ht] at h2
      rcases h2 with h2 | ⟨v, h2⟩
      · cases h2
        simp only [kvEff, Option.some.injEq, Prod.mk.injEq] at he
        obtain ⟨rfl, rfl⟩ := he
        obtain ⟨v, hv⟩ := Option.isSome_iff_exists.mp h1
        exact .inr ⟨v, by simp [hv]⟩
      · cases h2
    · simpa [Function.update_of_ne hut] using h2

/-- An append that has answered has put a value under its key. -/
theorem kv_put {c : Codec K V} {indexed : Bool} {n : Nat} {s s' : AtState n (List (K × V)) K V} {tr : List (SEv n K V)}
    (hx : Exec (AtStep (kvEff c indexed) (refusal c sys indexed)) s tr s') (h0 : ∀ t, s.pcs t = .idle) {t : Fin n} {k : K} {v : V}
    (h : s'.pcs t = .ready (.append k v) (.done (.ok ()))) :
    (s'.obj.lookup k).isSome ∧ indexed = true ∧ (c.encK k).isSome := by
  refine (Exec.invariant (P := fun _ s => ∀ t k v, s.pcs t = .ready (.append k v) (.done (.ok ())) →
    (s.obj.lookup k).isSome ∧ indexed = true ∧ (c.encK k).isSome) (fun t k v h => by rw [h0] at h; cases h) ?_ hx) t k v h
  intro tr s ev s' ih hs t k v ht
  have hk : (s.obj.lookup k).isSome → (s'.obj.lookup k).isSome := kv_keeps (tr := ev.toList) (by cases ev with
    | none => exact .silent .nil hs
    | some e => exact .event .nil hs)
  cases hs with
  | @invoke u cl hu =>
    rcases update_cases ht with ⟨_, he⟩ | ⟨_, he⟩
    · cases he
    · exact ih t k v he
  | @answer u cl r hu =>
    rcases update_cases ht with ⟨_, he⟩ | ⟨_, he⟩
    · cases he
    · exact ih t k v he
  | @fail u cl r hu hf =>
    rcases update_cases ht with ⟨_, he⟩ | ⟨_, he⟩
    · cases he; exact absurd rfl (refusal_ok hf)
    · exact ih t k v he
  | @act u cl r o hu he =>
    rcases update_cases ht with ⟨_, he'⟩ | ⟨_, he'⟩
    · cases he'
      simp only [kvEff] at he
      split at he
      · rename_i hi
        split at he
        · rename_i hek
          cases he; exact ⟨by simp, hi, hek.1⟩
        · cases he
      · cases he
    · have := ih t k v he'
      exact ⟨hk this.1, this.2⟩

/-- While no other append under `k` is called or waits for its effect, the append of thread `w` puts its value there. -/
theorem kv_alone {c : Codec K V} {indexed : Bool} {n : Nat} {s s' : AtState n (List (K × V)) K V} {tr : List (SEv n K V)}
    (hx : Exec (AtStep (kvEff c indexed) (refusal c sys indexed)) s tr s') {k : K} {v : V} {w : Fin n} (hw : s.pcs w = .called (.append k v))
    (hno : ∀ t v', s.pcs t = .called (.append k v') → t = w) (hown : ∀ e ∈ tr, e.tid ≠ w)
    (hcall : ∀ t v', SEv.inv t (.append k v') ∉ tr) :
    (∀ t v', s'.pcs t = .called (.append k v') → t = w) ∧
      (s'.pcs w = .called (.append k v) ∨ ∃ r, s'.pcs w = .ready (.append k v) r ∧ (r = .done (.ok ()) →
        s'.obj.lookup k = some v ∧ indexed = true ∧ (c.encK k).isSome)) := by
  refine Exec.invariant (P := fun tr s => (∀ e ∈ tr, e.tid ≠ w) → (∀ t v', SEv.inv t (.append k v') ∉ tr) →
      (∀ t v', s.pcs t = .called (.append k v') → t = w) ∧
      (s.pcs w = .called (.append k v) ∨ ∃ r, s.pcs w = .ready (.append k v) r ∧ (r = .done (.ok ()) →
        s.obj.lookup k = some v ∧ indexed = true ∧ (c.encK k).isSome))) (fun _ _ => ⟨hno, .inl hw⟩) ?_ hx hown hcall
  intro tr s ev s' ih hs hown hcall
  obtain ⟨h1, h2⟩ := ih (fun e he => hown e (List.mem_append_left _ he)) (fun t v' h => hcall t v' (List.mem_append_left _ h))
  cases hs with
  | @invoke t cl ht =>
    have hne : w ≠ t := fun h => hown (.inv t cl) (by simp) h.symm
    refine ⟨?_, by simpa [Function.update_of_ne hne] using h2⟩
    intro u v' hu
    rcases update_cases hu with ⟨rfl, he⟩ | ⟨_, he⟩
    · cases he; exact absurd (by simp) (hcall u v')
    · exact h1 u v' he
  | @answer t cl r ht =>
    have hne : w ≠ t := fun h => hown (.ret t cl r) (by simp) h.symm
    refine ⟨?_, by simpa [Function.update_of_ne hne] using h2⟩
    intro u v' hu
    rcases update_cases hu with ⟨rfl, he⟩ | ⟨_, he⟩
    · cases he
    · exact h1 u v' he
  | @fail t cl r ht hf =>
    refine ⟨?_, ?_⟩
    · intro u v' hu
      rcases update_cases hu with ⟨rfl, he⟩ | ⟨_, he⟩
      · cases he
      · exact h1 u v' he
    · by_cases hwt : w = t
      · subst hwt
        rw [ht] at h2
        rcases h2 with h2 | ⟨r', h2, _⟩
        · cases h2
          exact .inr ⟨r, by simp, fun hr => absurd hr (refusal_ok hf)⟩
        · cases h2
      · simpa [Function.update_of_ne hwt] using h2
  | @act t cl r o ht he =>
    refine ⟨?_, ?_⟩
    · intro u v' hu
      rcases update_cases hu with ⟨rfl, he⟩ | ⟨_, he⟩
      · cases he
      · exact h1 u v' he
    · by_cases hwt : w = t
      · subst hwt
        rw [ht] at h2
        rcases h2 with h2 | ⟨r', h2, _⟩
        · cases h2
          refine .inr ⟨r, by simp, ?_⟩
          rintro rfl
          simp only [kvEff] at he
          split at he
          · split at he
            · rename_i hi hk
              cases he; exact ⟨by simp, hi, hk.1⟩
            · cases he
          · cases he
        · cases h2
      · simp only [Function.update_of_ne hwt]
        rcases h2 with h2 | ⟨r', h2, h3⟩
        · exact .inl h2
        · refine .inr ⟨r', h2, fun hr => ?_⟩
          obtain ⟨h4, h5⟩ := h3 hr
          refine ⟨?_, h5⟩
          rcases kvEff_cases he with rfl | ⟨k', v', rfl, rfl, _⟩
          · exact h4
          · have hk : ¬ k = k' := by
              rintro rfl
              exact hwt (h1 t v' ht).symm
            rw [List.lookup_cons, beq_eq_false_iff_ne.mpr hk]
            exact h4

/-- While no append under `k` is called or waits for its effect, the value stays. -/
theorem kv_still {c : Codec K V} {indexed : Bool} {n : Nat} {s s' : AtState n (List (K × V)) K V} {tr : List (SEv n K V)}
    (hx : Exec (AtStep (kvEff c indexed) (refusal c sys indexed)) s tr s') {k : K} {o : Option V}
    (hno : ∀ t v', s.pcs t ≠ .called (.append k v')) (hcall : ∀ t v', SEv.inv t (.append k v') ∉ tr)
    (hv : s.obj.lookup k = o) :
    (∀ t v', s'.pcs t ≠ .called (.append k v')) ∧ s'.obj.lookup k = o ∧ ∀ u, (∀ e ∈ tr, e.tid ≠ u) →
      (s.pcs u = .called (.get k) → s'.pcs u = .called (.get k) ∨
        s'.pcs u = .ready (.get k) (.value (keyed c indexed k o))) := by
  refine Exec.invariant (P := fun tr s' => (∀ t v', SEv.inv t (.append k v') ∉ tr) →
      (∀ t v', s'.pcs t ≠ .called (.append k v')) ∧ s'.obj.lookup k = o ∧ ∀ u, (∀ e ∈ tr, e.tid ≠ u) →
      (s.pcs u = .called (.get k) → s'.pcs u = .called (.get k) ∨
        s'.pcs u = .ready (.get k) (.value (keyed c indexed k o))))
    (fun _ => ⟨hno, hv, fun u _ h => .inl h⟩) ?_ hx hcall
  intro tr s1 ev s2 ih hs hcall
  obtain ⟨h1, h2, h3⟩ := ih (fun t v' h => hcall t v' (List.mem_append_left _ h))
  cases hs with
  | @invoke t cl ht =>
    refine ⟨?_, h2, ?_⟩
    · intro u v' hu
      rcases update_cases hu with ⟨rfl, he⟩ | ⟨_, he⟩
      · cases he; exact absurd (by simp) (hcall u v')
      · exact h1 u v' he
    · intro u hu hg
      have hne : u ≠ t := fun h => hu (.inv t cl) (by simp) h.symm
      simpa [Function.update_of_ne hne] using h3 u (fun e he => hu e (List.mem_append_left _ he)) hg
  | @answer t cl r ht =>
    refine ⟨?_, h2, ?_⟩
    · intro u v' hu
      rcases update_cases hu with ⟨rfl, he⟩ | ⟨_, he⟩
      · cases he
      · exact h1 u v' he
    · intro u hu hg
      have hne : u ≠ t := fun h => hu (.ret t cl r) (by simp) h.symm
      simpa [Function.update_of_ne hne] using h3 u (fun e he => hu e (List.mem_append_left _ he)) hg
  | @fail t cl r ht hf =>
    obtain ⟨k0, v0, rfl⟩ := refusal_append hf
    refine ⟨?_, h2, ?_⟩
    · intro u v' hu
      rcases update_cases hu with ⟨rfl, he⟩ | ⟨_, he⟩
      · cases he
      · exact h1 u v' he
    · intro u hu hg
      have h4 := h3 u (fun e he => hu e (List.mem_append_left _ he)) hg
      have hut : u ≠ t := by
        rintro rfl
        rw [ht] at h4
        rcases h4 with h4 | h4 <;> cases h4
      simpa [Function.update_of_ne hut] using h4
  | @act t cl r o' ht he =>
    refine ⟨?_, ?_, ?_⟩
    · intro u v' hu
      rcases update_cases hu with ⟨rfl, he⟩ | ⟨_, he⟩
      · cases he
      · exact h1 u v' he
    · rcases kvEff_cases he with rfl | ⟨k', v', rfl, rfl, _⟩
      · exact h2
      · have hk : ¬ k = k' := by rintro rfl; exact h1 t v' ht
        simp only [List.lookup_cons, beq_eq_false_iff_ne.mpr hk]
        exact h2
    · intro u hu hg
      have h4 := h3 u (fun e he => hu e (List.mem_append_left _ he)) hg
      by_cases hut : u = t
      · subst hut
        rw [ht] at h4
        rcases h4 with h4 | h4
        · cases h4
          simp only [kvEff, Option.some.injEq, Prod.mk.injEq] at he
          obtain ⟨rfl, rfl⟩ := he
          exact .inr (by simp [h2])
        · cases h4
      · simpa [Function.update_of_ne hut] using h4

end kv

/-! ### The specification -/

/-- Thread `w` has called an append under `k` that was not answered. -/
def Open {n : Nat} (k : K) (tr : List (SEv n K V)) (w : Fin n) : Prop :=
  ∃ a v b, tr = a ++ .inv w (.append k v) :: b ∧ ∀ e ∈ b, e.tid ≠ w

/-- Appends under `k` do not overlap. -/
def Apart {n : Nat} (k : K) (tr : List (SEv n K V)) : Prop :=
  ∀ a u v b, tr = a ++ .inv u (.append k v) :: b → ∀ w, ¬ Open k a w

/-- The thread has called an append under `k` and has not recorded its key. -/
def SpPC.busy (k : K) : SpPC K V → Prop
  | .called (.append k' _) => k' = k
  | .put k' _ _ => k' = k
  | .counted k' _ _ => k' = k
  | _ => False

/-- Keys and values whose appends have answered without error. -/
def acked {n : Nat} (tr : List (SEv n K V)) : List (K × V) :=
  tr.filterMap (fun e => match e with
    | .ret _ (.append k v) (.done (.ok ())) => some (k, v)
    | _ => none)

/-- The keys and values in the log whose append has not answered. -/
def SpPC.held : SpPC K V → Multiset (K × V)
  | .put k v _ => {(k, v)}
  | .counted k v _ => {(k, v)}
  | .ready (.append k v) (.done (.ok ())) => {(k, v)}
  | _ => 0

theorem Open.other {n : Nat} {k : K} {tr : List (SEv n K V)} {w : Fin n} (h : Open k tr w) {ev : Option (SEv n K V)}
    (he : ∀ e, ev = some e → e.tid ≠ w) : Open k (tr ++ ev.toList) w := by
  obtain ⟨a, v, b, rfl, hb⟩ := h
  refine ⟨a, v, b ++ ev.toList, by simp, ?_⟩
  intro e hm
  rcases List.mem_append.mp hm with hm | hm
  · exact hb e hm
  · exact he e (by simpa using hm)

section sp
variable [DecidableEq K]

theorem busy_open {c : Codec K V} {indexed : Bool} {n : Nat} {log : List (K × V)} {keys : List (K × Nat)}
    {tr : List (SEv n K V)} {s : SpState n K V} (hx : Exec (SpStep c sys indexed) (spinit n log keys) tr s) (k : K) (t : Fin n)
    (h : (s.pcs t).busy k) : Open k tr t := by
  refine Exec.invariant (P := fun tr s => ∀ t, (s.pcs t).busy k → Open k tr t) (by intro t h; exact h.elim) ?_ hx t h
  intro tr s ev s' ih hs t ht
  -- thread `u` moves from `x` to `y`
  have key : ∀ (u : Fin n) (y : SpPC K V), (∀ e, ev = some e → e.tid = u) →
      (ev ≠ none → y.busy k → ∃ v, ev = some (.inv u (.append k v))) →
      (ev = none → y.busy k → (s.pcs u).busy k) → (Function.update s.pcs u y t).busy k → Open k (tr ++ ev.toList) t := by
    intro u y h1 h2 h3 h4
    by_cases htu : t = u
    · subst htu
      rw [Function.update_self] at h4
      cases hev : ev with
      | none =>
        have := ih t (h3 hev h4)
        simpa using this
      | some e =>
        obtain ⟨v, hv⟩ := h2 (by simp [hev]) h4
        rw [hev] at hv
        cases hv
        exact ⟨tr, v, [], rfl, by simp⟩
    · rw [Function.update_of_ne htu] at h4
      exact (ih t h4).other (fun e he h => htu (h.symm.trans (h1 e he)))
  cases hs with
  | @invoke u cl hu =>
    refine key u _ (by intro e he; cases he; rfl) ?_ (by simp) ht
    intro _ hb
    cases cl with
    | append k' v => cases hb; exact ⟨v, rfl⟩
    | _ => exact hb.elim
  | @answer u cl r hu => exact key u _ (by intro e he; cases he; rfl) (by intro _ hb; exact hb.elim) (by simp) ht
  | @look u cl r hu hl => exact key u _ (by simp) (by simp) (by intro _ hb; exact hb.elim) ht
  | @fail u cl r hu hf => exact key u _ (by simp) (by simp) (by intro _ hb; exact hb.elim) ht
  | @put u k' v hu hi hk hv hc => exact key u _ (by simp) (by simp) (fun _ hb => by rw [hu]; exact hb) ht
  | @count u k' v i hu => exact key u _ (by simp) (by simp) (fun _ hb => by rw [hu]; exact hb) ht
  | @record u k' v i hu => exact key u _ (by simp) (by simp) (by intro _ hb; exact hb.elim) ht
  | @pass u k' i hu _ _ hl => exact key u _ (by simp) (by simp) (by intro _ hb; exact hb.elim) ht
  | @follow u k' i hu => exact key u _ (by simp) (by simp) (by intro _ hb; exact hb.elim) ht

/-- The position of the last record under a key. -/
def lastPos (k : K) : List (K × V) → Nat → Option Nat → Option Nat
  | [], _, o => o
  | x :: xs, i, o => lastPos k xs (i + 1) (if x.1 = k then some i else o)

theorem lastPos_concat (k : K) (l : List (K × V)) (x : K × V) (i : Nat) (o : Option Nat) :
    lastPos k (l ++ [x]) i o = if x.1 = k then some (i + l.length) else lastPos k l i o := by
  induction l generalizing i o with
  | nil => rfl
  | cons y ys ih =>
    simp only [List.cons_append, lastPos, ih, List.length_cons]
    split
    · congr 1; omega
    · rfl

omit [DecidableEq K] in
theorem Apart.before {n : Nat} {k : K} {tr x : List (SEv n K V)} (h : Apart k (tr ++ x)) : Apart k tr := by
  intro a u v b hab
  exact h a u v (b ++ x) (by rw [hab]; simp)

omit [DecidableEq K] in
theorem SpPC.busy_put {x : SpPC K V} {k : K} {v : V} {i : Nat} (h : x = .put k v i ∨ x = .counted k v i) : x.busy k := by
  rcases h with rfl | rfl <;> rfl

/-- If appends under `k` do not overlap, the position recorded last is that of the last record, or an append is on its way. -/
def Follows (k : K) {n : Nat} (s : SpState n K V) : Prop :=
  (∀ t t', (s.pcs t).busy k → (s.pcs t').busy k → t = t') ∧
  ((∃ t v i, (s.pcs t = .put k v i ∨ s.pcs t = .counted k v i) ∧ lastPos k s.sh.log 0 none = some i) ∨
    ((∀ t v i, s.pcs t ≠ .put k v i ∧ s.pcs t ≠ .counted k v i) ∧ s.sh.keys.lookup k = lastPos k s.sh.log 0 none))

theorem follows_quiet {n : Nat} {k : K} {s : SpState n K V} (h : Follows k s) {u : Fin n} {y : SpPC K V}
    (hx : ∀ v i, s.pcs u ≠ .put k v i ∧ s.pcs u ≠ .counted k v i) (hy : ∀ v i, y ≠ .put k v i ∧ y ≠ .counted k v i)
    (hb : y.busy k → (s.pcs u).busy k ∨ ∀ t, ¬ (s.pcs t).busy k) {S : Shared K V}
    (hl : lastPos k S.log 0 none = lastPos k s.sh.log 0 none) (hk : S.keys.lookup k = s.sh.keys.lookup k) :
    Follows k ⟨S, Function.update s.pcs u y⟩ := by
  obtain ⟨h1, h2⟩ := h
  refine ⟨?_, ?_⟩
  · have key : ∀ t, (Function.update s.pcs u y t).busy k → (s.pcs t).busy k ∨ t = u ∧ ∀ t, ¬ (s.pcs t).busy k := by
      intro t ht
      by_cases htu : t = u
      · subst htu
        rw [Function.update_self] at ht
        rcases hb ht with h | h
        · exact .inl h
        · exact .inr ⟨rfl, h⟩
      · rw [Function.update_of_ne htu] at ht
        exact .inl ht
    intro t t' ht ht'
    rcases key t ht with h | ⟨h, hn⟩ <;> rcases key t' ht' with h' | ⟨h', hn'⟩
    · exact h1 t t' h h'
    · exact absurd h (hn' t)
    · exact absurd h' (hn t')
    · rw [h, h']
  · rcases h2 with ⟨t, v, i, h3, h4⟩ | ⟨h3, h4⟩
    · have htu : t ≠ u := by
        rintro rfl
        rcases h3 with h3 | h3
        · exact (hx v i).1 h3
        · exact (hx v i).2 h3
      exact .inl ⟨t, v, i, by simpa [Function.update_of_ne htu] using h3, by rw [hl]; exact h4⟩
    · refine .inr ⟨?_, by rw [hl, hk]; exact h4⟩
      intro t v i
      refine ⟨fun hu => ?_, fun hu => ?_⟩ <;> rcases update_cases hu with ⟨_, he⟩ | ⟨_, he⟩
      · exact (hy v i).1 he
      · exact (h3 t v i).1 he
      · exact (hy v i).2 he
      · exact (h3 t v i).2 he

theorem follows_exec {c : Codec K V} {indexed : Bool} {n : Nat} {log : List (K × V)} {keys : List (K × Nat)}
    {tr : List (SEv n K V)} {s : SpState n K V} (hx : Exec (SpStep c sys indexed) (spinit n log keys) tr s) (k : K)
    (h0 : keys.lookup k = lastPos k log 0 none) (hap : Apart k tr) : Follows k s := by
  refine (Exec.invariant (P := fun tr s => Exec (SpStep c sys indexed) (spinit n log keys) tr s ∧ (Apart k tr → Follows k s))
    ⟨.nil, fun _ => ⟨by intro t t' h; exact h.elim, .inr ⟨by intro t v i; simp [spinit], h0⟩⟩⟩ ?_ hx).2 hap
  rintro tr s ev s' ⟨hx, ih⟩ hs
  refine ⟨by cases ev with
    | none => simpa using Exec.silent hx hs
    | some e => exact .event hx hs, fun hap => ?_⟩
  have h := ih hap.before
  cases hs with
  | @invoke u cl hu =>
    refine follows_quiet h (by simp [hu]) (by simp) ?_ rfl rfl
    intro hb
    right
    intro t ht
    cases cl with
    | append k' v =>
      cases hb
      exact hap tr u v [] rfl t (busy_open hx _ t ht)
    | _ => exact hb.elim
  | @answer u cl r hu => exact follows_quiet h (by simp [hu]) (by simp) (by intro hb; exact hb.elim) rfl rfl
  | @look u cl r hu hl => exact follows_quiet h (by simp [hu]) (by simp) (by intro hb; exact hb.elim) rfl rfl
  | @fail u cl r hu hf => exact follows_quiet h (by simp [hu]) (by simp) (by intro hb; exact hb.elim) rfl rfl
  | @pass u k' i hu _ _ hl => exact follows_quiet h (by simp [hu]) (by simp) (by intro hb; exact hb.elim) rfl rfl
  | @follow u k' i hu => exact follows_quiet h (by simp [hu]) (by simp) (by intro hb; exact hb.elim) rfl rfl
  | @put u k' v hu hi hk hv hc =>
    by_cases hkk : k' = k
    · subst hkk
      obtain ⟨h1, h2⟩ := h
      have hbu : (s.pcs u).busy k' := by rw [hu]; rfl
      refine ⟨?_, .inl ⟨u, v, s.sh.log.length, .inl (by simp), by simp [lastPos_concat]⟩⟩
      have key : ∀ t, (Function.update s.pcs u (.put k' v s.sh.log.length) t).busy k' → (s.pcs t).busy k' := by
        intro t ht
        by_cases htu : t = u
        · subst htu; exact hbu
        · rwa [Function.update_of_ne htu] at ht
      exact fun t t' ht ht' => h1 t t' (key t ht) (key t' ht')
    · refine follows_quiet h (by simp [hu]) (by simp [hkk]) (by intro hb; exact absurd hb hkk) ?_ rfl
      rw [lastPos_concat, if_neg hkk]
  | @count u k' v i hu =>
    by_cases hkk : k' = k
    · subst hkk
      obtain ⟨h1, h2⟩ := h
      have hbu : (s.pcs u).busy k' := by rw [hu]; rfl
      refine ⟨?_, .inl ⟨u, v, i, .inr (by simp), ?_⟩⟩
      · have key : ∀ t, (Function.update s.pcs u (.counted k' v i) t).busy k' → (s.pcs t).busy k' := by
          intro t ht
          by_cases htu : t = u
          · subst htu; exact hbu
          · rwa [Function.update_of_ne htu] at ht
        exact fun t t' ht ht' => h1 t t' (key t ht) (key t' ht')
      · rcases h2 with ⟨t, v', i', h3, h4⟩ | ⟨h3, _⟩
        · have := h1 t u (SpPC.busy_put h3) hbu
          subst this
          rw [hu] at h3
          rcases h3 with h3 | h3 <;> cases h3
          exact h4
        · exact absurd hu (h3 u v i).1
    · exact follows_quiet h (by simp [hu, hkk]) (by simp [hkk]) (by intro hb; exact absurd hb hkk) rfl rfl
  | @record u k' v i hu =>
    by_cases hkk : k' = k
    · subst hkk
      obtain ⟨h1, h2⟩ := h
      have hbu : (s.pcs u).busy k' := by rw [hu]; rfl
      have hi : lastPos k' s.sh.log 0 none = some i := by
        rcases h2 with ⟨t, v', i', h3, h4⟩ | ⟨h3, _⟩
        · have := h1 t u (SpPC.busy_put h3) hbu
          subst this
          rw [hu] at h3
          rcases h3 with h3 | h3 <;> cases h3
          exact h4
        · exact absurd hu (h3 u v i).2
      have key : ∀ t, ¬ (Function.update s.pcs u (.ready (.append k' v) (.done (.ok ()))) t).busy k' := by
        intro t ht
        by_cases htu : t = u
        · subst htu; rw [Function.update_self] at ht; exact ht
        · rw [Function.update_of_ne htu] at ht
          exact htu (h1 t u ht hbu)
      refine ⟨fun t _ ht _ => absurd ht (key t), .inr ⟨?_, by simp [hi]⟩⟩
      intro t v' i'
      exact ⟨fun he => key t (SpPC.busy_put (.inl he)), fun he => key t (SpPC.busy_put (.inr he))⟩
    · refine follows_quiet h (by simp [hu, hkk]) (by simp) (by intro hb; exact hb.elim) rfl ?_
      rw [List.lookup_cons, beq_eq_false_iff_ne.mpr (fun h => hkk h.symm)]

/-! ### Every append is in the log once -/

omit [DecidableEq K] in
theorem sum_update_multiset {n : Nat} {α β : Type} (f : α → Multiset β) (pcs : Fin n → α) (t : Fin n) (x : α) :
    (∑ u, f (Function.update pcs t x u)) + f (pcs t) = (∑ u, f (pcs u)) + f x := by
  rw [← Finset.add_sum_erase _ _ (Finset.mem_univ t), ← Finset.add_sum_erase _ (fun u => f (pcs u))
    (Finset.mem_univ t)]
  have : ∑ u ∈ Finset.univ.erase t, f (Function.update pcs t x u) =
      ∑ u ∈ Finset.univ.erase t, f (pcs u) := by
    apply Finset.sum_congr rfl
    intro u hu
    rw [Function.update_of_ne (Finset.ne_of_mem_erase hu)]
  rw [this, Function.update_self]
  ac_rfl

theorem once_exec {c : Codec K V} {indexed : Bool} {n : Nat} {log : List (K × V)} {keys : List (K × Nat)}
    {tr : List (SEv n K V)} {s : SpState n K V} (hx : Exec (SpStep c sys indexed) (spinit n log keys) tr s) :
    (s.sh.log : Multiset (K × V)) = (log : Multiset (K × V)) + acked tr + ∑ t, (s.pcs t).held := by
  refine Exec.invariant (P := fun (tr : List (SEv n K V)) (s : SpState n K V) => (s.sh.log : Multiset (K × V)) = (log : Multiset (K × V)) + acked tr + ∑ t, (s.pcs t).held)
    (by simp [spinit, SpPC.held, acked]) ?_ hx
  intro tr s ev s' ih hs
  -- thread `u` moves on, the log stays
  have stay : ∀ (u : Fin n) (y : SpPC K V), y.held + (acked ev.toList : Multiset (K × V)) = (s.pcs u).held →
      (s.sh.log : Multiset (K × V)) = (log : Multiset (K × V)) + acked (tr ++ ev.toList) + ∑ t, (Function.update s.pcs u y t).held := by
    intro u y hy
    have h1 := sum_update_multiset SpPC.held s.pcs u y
    have h2 : (acked (tr ++ ev.toList) : Multiset (K × V)) = acked tr + acked ev.toList := by
      simp [acked, List.filterMap_append]
    rw [ih, h2]
    rw [← hy] at h1
    have h3 : (∑ t, (Function.update s.pcs u y t).held) + (acked ev.toList : Multiset (K × V)) + y.held =
        (∑ t, (s.pcs t).held) + y.held := by rw [← h1]; ac_rfl
    rw [← add_right_cancel h3]
    ac_rfl
  cases hs with
  | @invoke u cl hu => exact stay u _ (by simp [hu, SpPC.held, acked])
  | @look u cl r hu hl =>
    refine stay u _ ?_
    rw [hu]
    have : (SpPC.ready cl r : SpPC K V).held = 0 := by
      unfold SpPC.held
      split
      · rename_i he; cases he
      · rename_i he; cases he
      · rename_i he
        cases he
        simp only [look] at hl
        split at hl
        · split at hl
          · cases hl
          · cases hl
        · cases hl
      · rfl
    rw [this]
    simp [acked, SpPC.held]
  | @fail u cl r hu hf =>
    refine stay u _ ?_
    rw [hu]
    have : (SpPC.ready cl r : SpPC K V).held = 0 := by
      unfold SpPC.held
      split
      · rename_i he; cases he
      · rename_i he; cases he
      · rename_i he
        cases he
        exact absurd rfl (refusal_ok hf)
      · rfl
    rw [this]
    simp [acked, SpPC.held]
  | @put u k v hu hi hk hv hc =>
    have h1 := sum_update_multiset SpPC.held s.pcs u (.put k v s.sh.log.length)
    rw [hu] at h1
    simp only [SpPC.held, add_zero] at h1
    simp only [Option.toList_none, List.append_nil, SpPC.held] at ih ⊢
    rw [h1]
    rw [← Multiset.coe_add, ih]
    simp only [Multiset.coe_singleton]
    ac_rfl
  | @count u k v i hu => exact stay u _ (by simp [hu, SpPC.held, acked])
  | @record u k v i hu => exact stay u _ (by simp [hu, SpPC.held, acked])
  | @pass u k i hu _ _ hl => exact stay u _ (by simp [hu, SpPC.held, acked])
  | @follow u k i hu => exact stay u _ (by simp [hu, SpPC.held, acked])
  | @answer u cl r hu =>
    refine stay u _ ?_
    rw [hu]
    simp only [Option.toList_some, acked, List.filterMap_cons, List.filterMap_nil]
    cases cl with
    | append k v =>
      cases r with
      | done x =>
        cases x with
        | ok y => simp [SpPC.held]
        | error e => simp [SpPC.held]
      | _ => simp [SpPC.held]
    | _ => simp [SpPC.held]

end sp

end Verif.Ilm
