import Verif.Props.Multiverse
import Verif.Multiverse.Shared

/-!
# C109: several multiverses open in one domain

A run is a list of calls, each on one of the multiverses; they share what is stored. `SharedSpec` says what each of
them should show, and what should be stored.
-/

namespace Verif.Props

open Verif.Multiverse

/-- Nothing is stored and nothing open. -/
def noShared : Shared := ⟨[], []⟩

/-- The calls considered: identifiers determine blocks, numbers are 64-bit, and nobody holds references during
removals. -/
def SharedOk (B : Key → Block) (acts : List (Nat × HReq)) : Prop :=
  (∀ i o, (i, HReq.op o) ∈ acts → OpOk B o) ∧
  ∀ i k held, (i, HReq.op (.remove k held)) ∈ acts → held = fun _ => false

/-- **C109.** However the calls on the multiverses of a domain are interleaved, none of them fails, as long as no
multiverse is given again a block that it has after another one removed it. Each multiverse has the blocks that were
stored when it was opened, with those inserted and without those removed through itself; its tips are the blocks
without a linked child. What others do later does not show in it, but in what is stored, and so in the next one to be
opened. -/
theorem C109_views_partial {B : Key → Block} {acts : List (Nat × HReq)} (hok : SharedOk B acts)
    (hun : Unrenewed B SharedSpec.none acts) :
    ∃ w, noShared.run acts = .ok w ∧
      (∀ h, (AMap.get w.mem h).isSome = ((SharedSpec.none.run B acts).views h).isSome) ∧
      ∀ h m v, AMap.get w.mem h = some m → (SharedSpec.none.run B acts).views h = some v →
        (∀ k, m.get k = if (v.blocks k).isSome then some (B k) else none) ∧
        ∀ k, k ∈ m.tips.map Ref.key ↔
          (v.blocks k).isSome ∧ ∀ c, v.blocks c = some true → (B c).parent ≠ k := by
  obtain ⟨w, h1, h2⟩ := (SharedRel.nothing B).run hok.1 hok.2 hun
  refine ⟨w, h1, h2.open_, fun h m v hm hv => ?_⟩
  have hr := (h2.sees h m v hm hv).rel
  constructor
  · intro k
    have := hr.get k
    rw [Option.isSome_map] at this
    exact this
  · intro k
    have := hr.tips k
    rw [Option.isSome_map] at this
    refine this.trans (and_congr_right fun _ => ⟨fun hh c hc => ?_, fun hh c b hb hl => ?_⟩)
    · exact hh c ⟨true, false⟩ (by rw [hc]; rfl) rfl
    · obtain ⟨l, hl1, rfl⟩ := Option.map_eq_some_iff.1 hb
      exact hh c (by rw [hl1]; exact congrArg some hl)

/-- What the multiverse number `a` has and would save is saved. -/
def OwnSaved (B : Key → Block) (a : Nat) (s : SharedSpec) : Prop :=
  ∀ v, s.views a = some v → ∀ k, (v.blocks k).isSome → v.storeFrom ≤ (B k).number → s.saved k = true

theorem OwnSaved.step {B : Key → Block} {a : Nat} {s : SharedSpec} (h : OwnSaved B a s) (i : Nat) (r : HReq)
    (hok : ∀ o, r = .op o → OpOk B o) (hone : ∀ o, r = .op o → i ≠ a → ∃ sf, o = .reopen sf) :
    OwnSaved B a (s.step B i r) := by
  by_cases hi : i = a
  · subst hi
    cases r with
    | close =>
      intro v hv
      have hv : (if i = i then none else s.views i) = some v := hv
      rw [if_pos rfl] at hv
      cases hv
    | op o =>
      cases o with
      | reopen sf =>
        intro v hv k hk _
        have hv : (if i = i then some (viewOf B sf s.saved) else s.views i) = some v := hv
        rw [if_pos rfl] at hv
        cases hv
        unfold viewOf at hk
        dsimp only at hk
        show s.saved k = true
        cases hs : s.saved k with
        | true => rfl
        | false => rw [hs] at hk; cases hk
      | insert b =>
        cases hv0 : s.views i with
        | none => simp only [SharedSpec.step, hv0]; exact h
        | some v0 =>
          simp only [SharedSpec.step, hv0]
          split
          · exact h
          · intro v hv k hk hle
            have hv : (if i = i then some _ else s.views i) = some v := hv
            rw [if_pos rfl] at hv
            cases hv
            show (s.saved k || (decide (k = b.id) && decide (v0.storeFrom ≤ b.number))) = true
            by_cases hkb : k = b.id
            · subst hkb
              have hB := (hok _ rfl).1
              rw [← hB] at hle
              have hle : v0.storeFrom ≤ b.number := hle
              simp [hle]
            · have hk : (upd v0.blocks b.id _ k).isSome = true := hk
              unfold upd at hk
              rw [if_neg hkb] at hk
              rw [h v0 hv0 k hk hle]
              rfl
      | remove k0 held =>
        cases hv0 : s.views i with
        | none => simp only [SharedSpec.step, hv0]; exact h
        | some v0 =>
          simp only [SharedSpec.step, hv0]
          split
          · intro v hv k hk hle
            have hv : (if i = i then some _ else s.views i) = some v := hv
            rw [if_pos rfl] at hv
            cases hv
            have hk : (unl B v0.blocks k0 k).isSome = true := hk
            show (s.saved k && !decide (k = k0)) = true
            unfold unl at hk
            by_cases hkk : k = k0
            · rw [if_pos hkk] at hk; cases hk
            · rw [if_neg hkk] at hk
              have hk' : (v0.blocks k).isSome = true := by
                split at hk
                · rwa [Option.isSome_map] at hk
                · exact hk
              rw [h v0 hv0 k hk' hle]
              simp [hkk]
          · exact h
      | clear =>
        cases hv0 : s.views i with
        | none => simp only [SharedSpec.step, hv0]; exact h
        | some v0 =>
          simp only [SharedSpec.step, hv0]
          intro v hv k hk
          have hv : (if i = i then some _ else s.views i) = some v := hv
          rw [if_pos rfl] at hv
          cases hv
          cases hk
  · have hother : ∀ x : Option View, OwnSaved B a (s.setView i x) := by
      intro x v hv
      have hv : (if a = i then x else s.views a) = some v := hv
      rw [if_neg (fun hh => hi hh.symm)] at hv
      exact h v hv
    cases r with
    | close => exact hother none
    | op o =>
      obtain ⟨sf, rfl⟩ := hone o rfl hi
      exact hother _

theorem one_writer {B : Key → Block} {a : Nat} : ∀ {acts : List (Nat × HReq)} {s : SharedSpec}, OwnSaved B a s →
    (∀ i o, (i, HReq.op o) ∈ acts → OpOk B o) → (∀ i o, (i, HReq.op o) ∈ acts → i ≠ a → ∃ sf, o = .reopen sf) →
    Unrenewed B s acts
  | [], _, _, _, _ => trivial
  | (i, r) :: rest, s, h, h1, h2 => by
    refine ⟨fun b v hr hv hk hle => ?_, one_writer (h.step i r (fun o he => h1 i o (by rw [he]; simp))
      (fun o he => h2 i o (by rw [he]; simp))) (fun j o hm => h1 j o (List.mem_cons_of_mem _ hm))
      (fun j o hm => h2 j o (List.mem_cons_of_mem _ hm))⟩
    have hB := (h1 i (.insert b) (by rw [hr]; simp)).1
    by_cases hi : i = a
    · subst hi
      exact h v hv b.id hk (by rw [← hB]; exact hle)
    · obtain ⟨sf, he⟩ := h2 i (.insert b) (by rw [hr]; simp) hi
      cases he

/-- **C109.** The condition is met if only one of the multiverses is used to insert, remove or clear. All calls then
succeed, whatever the blocks. A multiverse that was only opened has the blocks that were stored at that moment, however
the writer goes on. -/
theorem C109_one_writer {B : Key → Block} {a : Nat} {before after : List (Nat × HReq)} {i sf : Nat} (hi : i ≠ a)
    (hok : SharedOk B (before ++ (i, .op (.reopen sf)) :: after))
    (hone : ∀ j o, (j, HReq.op o) ∈ before ++ (i, .op (.reopen sf)) :: after → j ≠ a → ∃ sf', o = .reopen sf')
    (hafter : ∀ r, (i, r) ∉ after) :
    ∃ w m, noShared.run (before ++ (i, .op (.reopen sf)) :: after) = .ok w ∧ AMap.get w.mem i = some m ∧
      ∀ k, m.get k = if (SharedSpec.none.run B before).saved k then some (B k) else none := by
  obtain ⟨w, h1, h2, h3⟩ := C109_views_partial hok (one_writer (a := a) (by intro v hv; cases hv) hok.1 hone)
  have hkeep : ∀ (l : List (Nat × HReq)) (s : SharedSpec), (∀ r, (i, r) ∉ l) → (s.run B l).views i = s.views i := by
    intro l
    induction l with
    | nil => intro s _; rfl
    | cons x l ih =>
      intro s hx
      obtain ⟨j, r⟩ := x
      have hj : i ≠ j := fun hh => hx r (by rw [hh]; simp)
      show ((s.step B j r).run B l).views i = _
      rw [ih _ (fun r hr => hx r (List.mem_cons_of_mem _ hr))]
      have hset : ∀ (s' : SharedSpec) (x : Option View), (s'.setView j x).views i = s'.views i := by
        intro s' x
        show (if i = j then x else s'.views i) = _
        rw [if_neg hj]
      cases r with
      | close => exact hset _ _
      | op o =>
        cases o with
        | reopen sf => exact hset _ _
        | insert b =>
          cases hv : s.views j with
          | none => simp only [SharedSpec.step, hv]
          | some v =>
            simp only [SharedSpec.step, hv]
            split
            · rfl
            · exact hset _ _
        | remove k held =>
          cases hv : s.views j with
          | none => simp only [SharedSpec.step, hv]
          | some v =>
            simp only [SharedSpec.step, hv]
            split
            · exact hset _ _
            · rfl
        | clear =>
          cases hv : s.views j with
          | none => simp only [SharedSpec.step, hv]
          | some v => simp only [SharedSpec.step, hv]; exact hset _ _
  have hview : (SharedSpec.none.run B (before ++ (i, .op (.reopen sf)) :: after)).views i =
      some (viewOf B sf (SharedSpec.none.run B before).saved) := by
    have e : SharedSpec.none.run B (before ++ (i, .op (.reopen sf)) :: after) =
        (((SharedSpec.none.run B before).step B i (.op (.reopen sf)))).run B after := by
      unfold SharedSpec.run
      rw [List.foldl_append]
      rfl
    rw [e, hkeep after _ hafter]
    show (if i = i then some _ else _) = _
    rw [if_pos rfl]
  have hs := h2 i
  rw [hview] at hs
  obtain ⟨m, hm⟩ := Option.isSome_iff_exists.1 hs
  refine ⟨w, m, h1, hm, fun k => ?_⟩
  rw [(h3 i m _ hm hview).1 k]
  unfold viewOf
  dsimp only
  by_cases hs : (SharedSpec.none.run B before).saved k = true
  · simp only [if_pos hs, Option.isSome_some, if_true]
  · simp only [if_neg hs, Option.isSome_none, Bool.false_eq_true, if_false]

/-- A writer with a fork, and another multiverse opened in between. -/
def sharedSample : List (Nat × HReq) :=
  [(0, .op (.reopen 0)), (0, .op (.insert (forkB [0]))), (0, .op (.insert (forkB [1]))), (1, .op (.reopen 0)),
    (0, .op (.remove [1] (fun _ => false))), (0, .op (.insert (forkB [2])))]

theorem sharedSample_ok : SharedOk forkB sharedSample := by
  constructor
  · intro i o hm
    simp only [sharedSample, List.mem_cons, Prod.mk.injEq, HReq.op.injEq, List.not_mem_nil, or_false] at hm
    rcases hm with ⟨_, rfl⟩ | ⟨_, rfl⟩ | ⟨_, rfl⟩ | ⟨_, rfl⟩ | ⟨_, rfl⟩ | ⟨_, rfl⟩ <;>
      first | exact forkB_ok _ | trivial
  · intro i k held hm
    simp only [sharedSample, List.mem_cons, Prod.mk.injEq, HReq.op.injEq, reduceCtorEq, and_false, false_or,
      Op.remove.injEq, List.not_mem_nil, or_false] at hm
    exact hm.2.2

/-- The hypotheses are met, and the one opened in between still has the block that was removed since. -/
example : ∃ w m, noShared.run sharedSample = .ok w ∧ AMap.get w.mem 1 = some m ∧ m.get [1] = some (forkB [1]) ∧
    m.get [2] = none := by
  obtain ⟨w, m, h1, h2, h3⟩ := C109_one_writer (B := forkB) (a := 0) (i := 1) (sf := 0) (by decide)
    (before := sharedSample.take 3) (after := sharedSample.drop 4) sharedSample_ok (by
      intro j o hm hj
      have hm : (j, HReq.op o) ∈ sharedSample := hm
      simp only [sharedSample, List.mem_cons, Prod.mk.injEq, HReq.op.injEq, List.not_mem_nil, or_false] at hm
      rcases hm with ⟨h, _⟩ | ⟨h, _⟩ | ⟨h, _⟩ | ⟨_, h⟩ | ⟨h, _⟩ | ⟨h, _⟩ <;>
        first | exact absurd h hj | exact ⟨0, h⟩)
    (by
      intro r hm
      simp [sharedSample] at hm)
  refine ⟨w, m, h1, h2, ?_, ?_⟩
  · rw [h3]; rfl
  · rw [h3]; rfl

/-- **C109** is false without the condition: inserting again a block that one has, which alone changes nothing
(C16), panics if another multiverse has removed it from the database. -/
theorem C109_panic_false : ¬ ∀ (B : Key → Block) (acts : List (Nat × HReq)), SharedOk B acts →
    panics (noShared.run acts) = false := by
  intro h
  have h1 := h forkB [(0, .op (.reopen 0)), (0, .op (.insert (forkB [0]))), (1, .op (.reopen 0)),
    (1, .op (.remove [0] (fun _ => false))), (0, .op (.insert (forkB [0])))] (by
    constructor
    · intro i o hm
      simp only [List.mem_cons, Prod.mk.injEq, HReq.op.injEq, List.not_mem_nil, or_false] at hm
      rcases hm with ⟨_, rfl⟩ | ⟨_, rfl⟩ | ⟨_, rfl⟩ | ⟨_, rfl⟩ | ⟨_, rfl⟩ <;> first | exact forkB_ok _ | trivial
    · intro i k held hm
      simp only [List.mem_cons, Prod.mk.injEq, HReq.op.injEq, reduceCtorEq, and_false, false_or,
        Op.remove.injEq, List.not_mem_nil, or_false] at hm
      exact hm.2.2)
  have h2 : panics (noShared.run [(0, .op (.reopen 0)), (0, .op (.insert (forkB [0]))), (1, .op (.reopen 0)),
    (1, .op (.remove [0] (fun _ => false))), (0, .op (.insert (forkB [0])))]) = true := by decide +kernel
  rw [h1] at h2
  cases h2

/-- A chain of three blocks, of which the middle one is removed by another multiverse and inserted again. -/
def renewed : List (Nat × HReq) :=
  [(0, .op (.reopen 0)), (0, .op (.insert (forkB [0]))), (0, .op (.insert (forkB [1]))), (0, .op (.insert (forkB [3]))),
    (1, .op (.reopen 0)), (1, .op (.remove [1] (fun _ => false))), (0, .op (.insert (forkB [1])))]

/-- **C109** is false without the condition: if it does not panic, a block with a stored child is a tip then, and
removing the child panics. -/
theorem C109_tip_false : (∃ w m, noShared.run renewed = .ok w ∧ AMap.get w.mem 0 = some m ∧
      m.tips.map Ref.key = [[1], [3]] ∧ (m.get [3]).map Block.parent = some [1]) ∧
    panics (noShared.run (renewed ++ [(0, .op (.remove [3] (fun _ => false)))])) = true := by
  refine ⟨?_, by decide +kernel⟩
  have e : ((noShared.run renewed).map (fun w => (AMap.get w.mem 0).map (fun m =>
      (m.tips.map Ref.key, (m.get [3]).map Block.parent)))).toOption = some (some ([[1], [3]], some [1])) := by
    decide +kernel
  cases h : noShared.run renewed with
  | error e' => rw [h] at e; cases e
  | ok w =>
    rw [h] at e
    have e2 := Option.some.inj e
    dsimp only at e2
    cases h2 : AMap.get w.mem 0 with
    | none => rw [h2] at e2; cases e2
    | some m =>
      rw [h2] at e2
      have e3 := Option.some.inj e2
      simp only [Prod.mk.injEq] at e3
      exact ⟨w, m, rfl, h2, e3.1, e3.2⟩

end Verif.Props
