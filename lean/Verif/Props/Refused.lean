import Verif.Props.ForkHandling
import Verif.Sources.RefusedHeals

/-!
# C115: a multiverse whose database fails

A write of the database may fail, and then has had no effect (`.lost`) or was done nevertheless (`.kept`). `faultSpecs` says
which blocks should be shown and which be stored after a history of calls.
-/

namespace Verif.Props

open Verif.Multiverse Verif.Sources

variable {P : Type} [DecidableEq P] {B : Key → Block} {d : Nat} {r : Key} {nf : Block → Option P}

/-! ### The multiverse -/

/-- C115: after every history of insertions and removals, any of which may fail for the database: no call panicked; the
multiverse shows the blocks it should show, with the same links, roots and tips as if the failed insertions had not been
made and the failed removals had been; and opening the database gives the blocks that should be stored. -/
theorem C115_history (sf sf' : Nat) {ops : List FOp} (hok : ∀ op ∈ ops, op.Ok B) :
    (∀ k, (fRun (MV.empty [] sf) ops).get k = if (faultSpecs sf ops).1 k then some (B k) else none) ∧
    (∃ m0, mvRun (MV.empty [] sf) (ops.filterMap (FOp.shows sf)) = .ok m0 ∧
      fRun (MV.empty [] sf) ops = { m0 with db := (fRun (MV.empty [] sf) ops).db }) ∧
    (∃ m', loadFrom (fRun (MV.empty [] sf) ops).db sf' = .ok m' ∧
      ∀ k, m'.get k = if (faultSpecs sf ops).2 k then some (B k) else none) ∧
    ∀ op, op.Ok B → (fStep (fRun (MV.empty [] sf) ops) op).1 ≠ some (.mv .panic) := by
  obtain ⟨m0, h1, h2⟩ := FInv.run ops (FInv.empty B sf) hok
  refine ⟨fun k => ?_, ⟨m0, h1, h2.eq⟩, ?_, fun op ho => (h2.step ho).1⟩
  · obtain ⟨S, h3, h4, _⟩ := h2.mem
    have e : (fRun (MV.empty [] sf) ops).get k = m0.get k := by rw [h2.eq]; rfl
    rw [e, h3.get, h4]
    rfl
  · obtain ⟨q, T, h3, h4, h5, h6⟩ := h2.disk
    obtain ⟨m', h7, h8, _⟩ := h3.reopen sf'
    rw [h5] at h7
    refine ⟨m', h7, fun k => ?_⟩
    have e : (specReopen B T k).isSome = (faultSpecs sf ops).2 k := by
      unfold specReopen
      have h9 : isSaved T k = (faultSpecs sf ops).2 k := (h3.isSaved_eq h4 k).trans (h6 k)
      rw [h9]
      cases (faultSpecs sf ops).2 k <;> rfl
    rw [h8.get, e]

/-- Blocks 0 and 1 are inserted, 2 fails and is kept, the removal of 1 fails and is lost: 0 is shown, and 0, 1 and 2 are
stored. -/
example : (∀ op ∈ [FOp.insert .fine (treeB [0]), .insert .fine (treeB [1]), .insert .kept (treeB [2]), .remove .lost [1]],
      op.Ok treeB) ∧
    [[0], [1], [2]].map (faultSpecs 0 [.insert .fine (treeB [0]), .insert .fine (treeB [1]), .insert .kept (treeB [2]),
      .remove .lost [1]]).1 = [true, false, false] ∧
    [[0], [1], [2]].map (faultSpecs 0 [.insert .fine (treeB [0]), .insert .fine (treeB [1]), .insert .kept (treeB [2]),
      .remove .lost [1]]).2 = [true, true, true] := by
  refine ⟨?_, by decide +kernel, by decide +kernel⟩
  intro op h
  simp only [List.mem_cons, List.not_mem_nil, or_false] at h
  rcases h with rfl | rfl | rfl | rfl
  · exact ⟨by decide, by decide⟩
  · exact ⟨by decide, by decide⟩
  · exact ⟨by decide, by decide⟩
  · trivial

/-- C115: an insertion that fails for the database shows nothing, and can be made again: it then does what it would have done
at first. -/
theorem C115_again {m : MV} {f : Fault} {v : Block} (hv : m.get v.id = none) (he : (m.insertF f v).1 = .error .db) :
    (∀ k, (m.insertF f v).2.get k = m.get k) ∧ (m.insertF f v).2.tips = m.tips ∧ (m.insertF f v).2.roots = m.roots ∧
    (m.insertF f v).2.insert v = m.insert v := by
  have hno : AMap.get m.all v.id = none := by
    cases hh : AMap.get m.all v.id with
    | none => rfl
    | some x =>
      unfold MV.get at hv
      rw [hh] at hv
      cases hv
  have hc : m.storeFrom ≤ v.number ∧ f ≠ .fine := by
    by_contra hc
    unfold MV.insertF at he
    rw [if_neg hc] at he
    split at he <;> cases he
  have e : (m.insertF f v).2 = if f = .kept then (m.dbInsert v).2 else m := by
    unfold MV.insertF
    rw [if_pos hc]
  rw [e]
  split
  · have hd : (m.dbInsert v).2 = m.withDb (AMap.insert m.db (mkKey v.number v.id) v) := by
      unfold MV.dbInsert
      rw [if_pos hc.1]
      rfl
    rw [hd]
    refine ⟨fun _ => rfl, rfl, rfl, ?_⟩
    rw [insert_absent m v hno, insert_absent (m.withDb (AMap.insert m.db (mkKey v.number v.id) v)) v hno, insertMem_withDb]
    have e1 : ((m.withDb (AMap.insert m.db (mkKey v.number v.id) v)).dbInsert v).2.db = (m.dbInsert v).2.db := by
      rw [hd]
      unfold MV.dbInsert
      rw [if_pos (show (m.withDb (AMap.insert m.db (mkKey v.number v.id) v)).storeFrom ≤ v.number from hc.1)]
      exact AMap_insert_insert _ _ _
    rw [e1]
    cases m.insertMem v <;> rfl
  · exact ⟨fun _ => rfl, rfl, rfl, rfl⟩

example : (fRun (MV.empty [] 0) [.insert .fine (treeB [0])]).get [1] = none ∧
    ((fRun (MV.empty [] 0) [.insert .fine (treeB [0])]).insertF .kept (treeB [1])).1 = .error .db := ⟨rfl, rfl⟩

/-- C115: a removal that fails for the database is not without effect: the block is no longer shown. -/
theorem C115_remove_false : ¬ ∀ (m : MV) (f : Fault) (k : Key), (m.removeF f (fun _ => false) k).1 = .error .db →
    (m.removeF f (fun _ => false) k).2.get k = m.get k := by
  intro h
  have := h (fRun (MV.empty [] 0) [.insert .fine (treeB [0])]) .lost [0] rfl
  revert this
  decide +kernel

/-- C115: it cannot be made again, for the block is not found; and after opening the database the block is there again. -/
theorem C115_back {ops : List FOp} (hok : ∀ op ∈ ops, op.Ok B) {sf : Nat} {k : Key} {m m' : MV}
    (hm : m = fRun (MV.empty [] sf) ops) (hs : (faultSpecs sf ops).2 k = true)
    (hr : m.removeF .lost (fun _ => false) k = (.error .db, m')) :
    m'.get k = none ∧ (∀ f, m'.removeF f (fun _ => false) k = (.error (.mv .notFound), m')) ∧
    ∀ sf', ∃ q, loadFrom m'.db sf' = .ok q ∧ q.get k = some (B k) := by
  have hst : fStep m (.remove .lost k) = (some .db, m') := by
    unfold fStep
    simp only [hr]
  have hrun : fRun (MV.empty [] sf) (ops ++ [.remove .lost k]) = m' := by
    rw [hm] at hst
    unfold fRun at hst ⊢
    rw [List.foldl_append]
    simp only [List.foldl_cons, List.foldl_nil, hst]
  have hok' : ∀ op ∈ ops ++ [FOp.remove .lost k], op.Ok B := by
    intro op ho
    rcases List.mem_append.1 ho with ho | ho
    · exact hok op ho
    · rw [List.mem_singleton.1 ho]; trivial
  have hspec : faultSpecs sf (ops ++ [.remove .lost k]) = faultSpec sf (faultSpecs sf ops) (.remove .lost k) := by
    simp [faultSpecs, List.foldl_append]
  have hget : m'.get k = none := by
    obtain ⟨h1, _⟩ := C115_history (B := B) sf 0 hok'
    rw [← hrun, h1, hspec]
    unfold faultSpec
    by_cases h : (faultSpecs sf ops).1 k
    · simp [h]
    · simp [h]
  refine ⟨hget, fun f => ?_, fun sf' => ?_⟩
  · have hno : AMap.get m'.all k = none := by
      cases hh : AMap.get m'.all k with
      | none => rfl
      | some x =>
        unfold MV.get at hget
        rw [hh] at hget
        cases hget
    unfold MV.removeF MV.remove
    simp only [hno]
  · obtain ⟨_, _, ⟨q, h1, h2⟩, _⟩ := C115_history (B := B) sf sf' hok'
    rw [hrun] at h1
    refine ⟨q, h1, ?_⟩
    rw [h2, hspec]
    simp only [faultSpec]
    by_cases h : (faultSpecs sf ops).1 k
    · simp [h, hs]
    · simp [h, hs]

example : (faultSpecs 0 [.insert .fine (treeB [0])]).2 [0] = true ∧
    ((fRun (MV.empty [] 0) [.insert .fine (treeB [0])]).removeF .lost (fun _ => false) [0]).1 = .error .db := ⟨rfl, rfl⟩

/-! ### The multiverse source -/

/-- C115: if the insertion of a pull fails for the database, the pull fails, and every later pull answers, asks and leaves
behind the same, but for the database, as if it had not been made. -/
theorem C115_asks_again {s : MSrc} {o : Orders} {ft : Nat → Fault} {from' : Option P}
    {resp : List P → Except Unit (Option Ev)} {ps : List P} {v : Block} (hft : ft 0 ≠ .fine)
    (hask : (s.pullF nf o ft from' resp).asked = some ps) (hr : resp ps = .ok (some (.block v)))
    (hv : s.mv.get v.id = none) (hsf : s.mv.storeFrom ≤ v.number) :
    (s.pullF nf o ft from' resp).res = .error .db ∧
    ∀ o2 from2 resp2,
      ((s.pullF nf o ft from' resp).src.pull nf o2 from2 resp2).res = (s.pull nf o2 from2 resp2).res ∧
      ((s.pullF nf o ft from' resp).src.pull nf o2 from2 resp2).asked = (s.pull nf o2 from2 resp2).asked ∧
      ∃ d', ((s.pullF nf o ft from' resp).src.pull nf o2 from2 resp2).src =
        { (s.pull nf o2 from2 resp2).src with mv := { (s.pull nf o2 from2 resp2).src.mv with db := d' } } := by
  have key : ∃ d, (s.pullF nf o ft from' resp).res = .error .db ∧
      (s.pullF nf o ft from' resp).src = { s with mv := s.mv.withDb d } := by
    have hins : ∃ d, s.mv.insertF (ft 0) v = (.error .db, s.mv.withDb d) := by
      unfold MV.insertF
      rw [if_pos ⟨hsf, hft⟩]
      split
      · refine ⟨AMap.insert s.mv.db (mkKey v.number v.id) v, ?_⟩
        unfold MV.dbInsert
        rw [if_pos hsf]
        rfl
      · exact ⟨s.mv.db, rfl⟩
    obtain ⟨d, hins⟩ := hins
    refine ⟨d, ?_⟩
    unfold MSrc.pullF at hask ⊢
    cases hreq : s.request nf o from' with
    | error e => rw [hreq] at hask; cases hask
    | ok y =>
      cases y with
      | inl b => rw [hreq] at hask; cases hask
      | inr ps' =>
        rw [hreq] at hask
        have hps : ps' = ps := Option.some.inj hask
        subst hps
        have ha : s.answerF o ft (resp ps') = (.error .db, { s with mv := s.mv.withDb d }) := by
          rw [hr]
          simp only [MSrc.answerF, hv, Option.isSome_none, Bool.false_eq_true, if_false, MSrc.storeF, insertAndGcF, hins]
        simp only [ha]
        exact ⟨trivial, trivial⟩
  obtain ⟨d, h1, h2⟩ := key
  refine ⟨h1, fun o2 from2 resp2 => ?_⟩
  rw [h2]
  obtain ⟨d', h3, h4, h5⟩ := pull_withDb nf s d o2 from2 resp2
  exact ⟨h3, h4, d', h5⟩

/-- Delivers a block over a database that fails as told. -/
def deliverF (ft : Nat → Fault) (k : Key) : ActF Key :=
  .pull plainOrders ft (fun _ => .ok (some (.block (treeB k)))) plainOrders

/-- The write number `i` fails. -/
def failAt (i : Nat) (f : Fault) : Nat → Fault := fun j => if j = i then f else .fine

example : ((World.start (P := Key) 0 none).src.pullF idPoint plainOrders (failAt 0 .kept) none
      (fun _ => .ok (some (.block (treeB [0]))))).asked = some [] ∧
    (World.start (P := Key) 0 none).src.mv.get [0] = none := ⟨rfl, rfl⟩

/-- A chain: each block has the number and the identifier of its position. -/
def lineB (n : Nat) : Block := ⟨[UInt8.ofNat (n + 1)], [UInt8.ofNat n], n, 0⟩

/-- C115: a consumer that pulls on after an error misses a block without being told, if the removal of an old block fails
during a pull: the inner source delivers a chain, and the block released next does not follow the last one. -/
theorem C115_skips_false : ¬ ∀ (d : Nat) (as : List ((Nat → Fault) × Block)), (∀ a ∈ as, a.1 0 = .fine) →
    (as.map Prod.snd).IsChain (fun u v => v.parent = u.id ∧ v.number = u.number + 1) →
    (Stubborn.run idPoint d none (as.map fun a => (a.1, fun _ => .ok (some (.block a.2))))).out.IsChain
      (fun u v => v.parent = u.id) := by
  intro h
  have := h 0 [(fun _ => .fine, lineB 0), (fun _ => .fine, lineB 1), (failAt 1 .lost, lineB 2), (fun _ => .fine, lineB 3)]
    (by decide) (by decide)
  revert this
  decide +kernel

/-- C115: so does one whose inner source goes on although the insertion of a block failed. -/
theorem C115_insert_skips_false : ¬ ∀ (d : Nat) (as : List ((Nat → Fault) × Block)), (∀ a ∈ as, ∀ i, a.1 (i + 1) = .fine) →
    (as.map Prod.snd).IsChain (fun u v => v.parent = u.id ∧ v.number = u.number + 1) →
    (Stubborn.run idPoint d none (as.map fun a => (a.1, fun _ => .ok (some (.block a.2))))).out.IsChain
      (fun u v => v.parent = u.id) := by
  intro h
  have := h 0 [(fun _ => .fine, lineB 0), (fun _ => .fine, lineB 1), (failAt 0 .lost, lineB 2), (fun _ => .fine, lineB 3)]
    (by
      intro a ha i
      simp only [List.mem_cons, List.not_mem_nil, or_false] at ha
      rcases ha with rfl | rfl | rfl | rfl <;> simp [failAt]) (by decide)
  revert this
  decide +kernel

/-- C115: a consumer that began without position, and that makes the source anew from the database when the database fails,
misses nothing: C23 holds for it, whatever fails. `got` are the blocks delivered but for those whose insertion was lost.
What is not covered: a consumer that began at a position, for which it is false already with crashes. -/
theorem C115_restart_partial {as : List (ActF P)} (ha : ∀ a ∈ as, a.Ok True) {w : World P}
    (hw : w = (World.start d none).runF nf as) (hf : Feed B r w.got) (hcp : CommonPrefix B d r w.got)
    (hp : Points nf w.got) {x : Block} (hx : x ∈ w.got) (hm : ∀ y ∈ w.got, y.number ≤ x.number)
    {chain : List Key}
    (hc : chain = (path B (x.number - (B r).number) x.id).take (x.number - (B r).number + 1 - d)) :
    w.failed = none ∧
    (w.out.map Block.id = chain ∨
      ∃ b, b = B b.id ∧ w.out.map Block.id ++ [b.id] = chain ∧ ∀ o, o.Ok → ∀ resp,
        (w.src.pull nf o w.pos resp).res = .ok (some (.block b))) ∧
    (∀ as' o resp, as = as' ++ [.act (.pull o resp)] → w.out.map Block.id = chain) := by
  have hall := hw
  rw [hw] at hf hcp hp
  obtain ⟨bs, hbs, hrun⟩ := runF_eq as ha hf hcp hp
  rw [hrun] at hf hcp hp hw
  subst hw
  obtain ⟨h1, h2, _⟩ := C23_crash hbs rfl hf hcp hp hx hm hc
  refine ⟨h1, h2, ?_⟩
  rintro as' o resp rfl
  have e : (World.start d none).runF nf (as' ++ [.act (.pull o resp)]) =
      ((World.start d none).runF nf as').step nf (.pull o resp) := by
    simp [World.runF, World.stepF]
  rw [hall, e] at hf hcp hp
  obtain ⟨l, hl⟩ := step_got nf ((World.start d none).runF nf as') (.pull o resp)
  have hf' := hf
  have hcp' := hcp
  have hp' := hp
  rw [hl] at hf' hcp' hp'
  obtain ⟨cs, hcs, hrun'⟩ := runF_eq as' (fun a h => ha a (List.mem_append.2 (.inl h))) hf'.append hcp'.append hp'.append
  have e2 : (World.start d none).run nf bs = (World.start d none).run nf (cs ++ [.pull o resp]) := by
    rw [hall, e, hrun']
    simp [World.run]
  rw [← e, ← hall, e2] at hf hcp hp
  rw [e2] at hx hm ⊢
  refine (C23_crash (as := cs ++ [.pull o resp]) ?_ rfl hf hcp hp hx hm hc).2.2 cs o resp rfl
  intro a h
  rcases List.mem_append.1 h with h | h
  · exact hcs a h
  · rw [List.mem_singleton.1 h]
    exact ha (.act (.pull o resp)) (by simp)

/-- The removal of the first block fails and the source is made anew: the block that was selected is released by the next
pull. -/
example : ∃ w, w = (World.start 0 none).runF idPoint [deliverF (failAt 9 .lost) [0], deliverF (failAt 9 .lost) [1],
      deliverF (failAt 1 .lost) [3]] ∧
    Feed treeB [0] w.got ∧ CommonPrefix treeB 0 [0] w.got ∧ Points idPoint w.got ∧
    w.out.map Block.id = [[0], [1]] ∧ w.src.confirmed = some [3] := by
  refine ⟨_, rfl, feed_of_check (by decide +kernel), prefix_of_check (n := 5) (by decide +kernel),
    idPoint_points (B := treeB) ?_, by decide +kernel, by decide +kernel⟩
  exact fun v hv => ((feed_of_check (B := treeB) (r := [0]) (by decide +kernel)).ok v hv).1

/-! ### The fork handling source -/

/-- C115: if the insertion of a pull of the fork handling source fails for the database, the pull fails, and every later pull
answers, asks and leaves behind the same, but for the database, as if it had not been made. -/
theorem C115_fork_asks_again {s : FSrc P} {o : Orders} {ft : Nat → Fault} {from' : Option P}
    {resp : List P → Except Unit (Option Ev)} {ps : List P} {v : Block} (hft : ft 0 ≠ .fine)
    (hask : (s.pullF nf o ft from' resp).asked = some ps) (hr : resp ps = .ok (some (.block v)))
    (hv : s.mv.get v.id = none) (hsf : s.mv.storeFrom ≤ v.number) :
    (s.pullF nf o ft from' resp).res = .error .db ∧
    ∀ o2 from2 resp2,
      ((s.pullF nf o ft from' resp).src.pull nf o2 from2 resp2).res = (s.pull nf o2 from2 resp2).res ∧
      ((s.pullF nf o ft from' resp).src.pull nf o2 from2 resp2).asked = (s.pull nf o2 from2 resp2).asked ∧
      ∃ d', ((s.pullF nf o ft from' resp).src.pull nf o2 from2 resp2).src =
        { (s.pull nf o2 from2 resp2).src with mv := { (s.pull nf o2 from2 resp2).src.mv with db := d' } } := by
  have key : ∃ d, (s.pullF nf o ft from' resp).res = .error .db ∧
      (s.pullF nf o ft from' resp).src = { s with mv := s.mv.withDb d } := by
    have hins : ∃ d, s.mv.insertF (ft 0) v = (.error .db, s.mv.withDb d) := by
      unfold MV.insertF
      rw [if_pos ⟨hsf, hft⟩]
      split
      · refine ⟨AMap.insert s.mv.db (mkKey v.number v.id) v, ?_⟩
        unfold MV.dbInsert
        rw [if_pos hsf]
        rfl
      · exact ⟨s.mv.db, rfl⟩
    obtain ⟨d, hins⟩ := hins
    refine ⟨d, ?_⟩
    unfold FSrc.pullF at hask ⊢
    cases hev : s.events with
    | cons e es => rw [hev] at hask; cases hask
    | nil =>
      rw [hev] at hask
      cases hreq : s.request nf o from' with
      | error e => rw [hreq] at hask; cases hask
      | ok ps' =>
        rw [hreq] at hask
        have hps : ps' = ps := Option.some.inj hask
        subst hps
        have ha : s.answerF nf o ft from' (resp ps') = (.error .db, { s with mv := s.mv.withDb d }) := by
          rw [hr]
          simp only [FSrc.answerF, hv, Option.isSome_none, Bool.false_eq_true, if_false, FSrc.storeF, insertAndGcF, hins]
        simp only [ha, hev]
        exact ⟨trivial, trivial⟩
  obtain ⟨d, h1, h2⟩ := key
  refine ⟨h1, fun o2 from2 resp2 => ?_⟩
  rw [h2]
  obtain ⟨d', h3, h4, h5⟩ := fpull_withDb nf s d o2 from2 resp2
  exact ⟨h3, h4, d', h5⟩

example : ((FWorld.start (P := Key) 0 [0]).src.pullF idPoint plainOrders (failAt 0 .kept) (some [0])
      (fun _ => .ok (some (.block (lineB 0))))).asked = some [[0]] ∧
    (FWorld.start (P := Key) 0 [0]).src.mv.get (lineB 0).id = none := ⟨rfl, rfl⟩

/-- A consumer of the fork handling source that begins at the block `[0]`. Each pull is given the faults and the block that
the inner source delivers if it is asked. -/
def forkRun (anew : Option (Orders × (List Ref → List Ref))) (d : Nat) (as : List ((Nat → Fault) × Block)) : FWorld Key :=
  (FWorld.start d [0]).runDb some idPoint anew (as.map fun a => (a.1, plainOrders, fun _ => .ok (some (.block a.2))))

/-- The blocks delivered, newest first, are a chain that begins at `[0]`. -/
def LineOf (D : List Block) : Prop :=
  D.IsChain (fun v u => v.parent = u.id ∧ v.number = u.number + 1) ∧ ∀ v ∈ D.getLast?, v.parent = [0]

instance (D : List Block) : Decidable (LineOf D) := by unfold LineOf; infer_instance

/-- The pulls of a chain, the first block twice, for the first pull asks the consumer to roll back to its position. -/
def linePulls (fts : List (Nat → Fault)) : List ((Nat → Fault) × Block) :=
  (failAt 9 .lost, lineB 0) :: (List.range fts.length).zipWith (fun i ft => (ft, lineB i)) fts

/-- C115: if the removal of an old block fails in two pulls, one after the other, a consumer that pulls on makes the fork
handling source panic. -/
theorem C115_fork_panics_false : ¬ ∀ (d : Nat) (as : List ((Nat → Fault) × Block)), (∀ a ∈ as, a.1 0 = .fine) →
    LineOf (forkRun none d as).got → (forkRun none d as).failed ≠ some .panic := by
  intro h
  exact h 0 (linePulls [failAt 9 .lost, failAt 9 .lost, failAt 1 .lost, failAt 1 .lost, failAt 9 .lost]) (by decide)
    (by decide +kernel) (by decide +kernel)

/-- C115: if the source is made anew after the removal of an old block failed, the consumer misses a block. -/
theorem C115_fork_restart_false : ¬ ∀ (d : Nat) (as : List ((Nat → Fault) × Block)), (∀ a ∈ as, a.1 0 = .fine) →
    LineOf (forkRun (some (plainOrders, id)) d as).got → (forkRun (some (plainOrders, id)) d as).chain ≠ none := by
  intro h
  exact h 0 (linePulls [failAt 9 .lost, failAt 9 .lost, failAt 1 .lost, failAt 9 .lost]) (by decide)
    (by decide +kernel) (by decide +kernel)

/-- If it pulls on after one failure it misses nothing: block 2 is delivered with block 3. -/
example : (forkRun none 0 (linePulls [failAt 9 .lost, failAt 9 .lost, failAt 1 .lost, failAt 9 .lost, failAt 9 .lost])).chain =
    some [(lineB 3).id, (lineB 2).id, (lineB 1).id, (lineB 0).id, [0]] := by decide +kernel

/-- C115: a consumer of the fork handling source that pulls on misses nothing, whichever insertions fail, and if removals fail as
long as no removal of the next pull with a new block does (and forks are short, as for C25, seen from the block that the consumer
was last given; blocks whose insertion failed count as not delivered):
nothing but the database or the inner source fails, all events fit, and the consumer's chain, with the queued events, leads from
its first position to the block of the last pull with a new block that did not fail; if none has failed since, this is the
block last delivered for the first time. What is not covered: removals that fail in two
pulls with new blocks in a row, for which it is false. -/
theorem C115_fork_heals_partial {p0 : P} {as : List ((Nat → Fault) × Orders × (List P → Except Unit (Option Ev)))} {t : Told P}
    (ht : t = (Told.start d (B r).parent).run (pointOf B nf r p0) nf as)
    (hs : Spaced B d r (pointOf B nf r p0) nf (Told.start d (B r).parent) as)
    (hf : Feed B r t.world.got) (hp : FPoints nf p0 t.world.got) :
    t.world = (FWorld.start d (B r).parent).runDb (pointOf B nf r p0) nf none as ∧
    t.world.failed = none ∧ (t.owed = false → t.told = lastNew t.world.got) ∧
    ∃ c, t.world.chain = some c ∧
      (t.told = none → t.world.got = [] ∧ c = [(B r).parent]) ∧
      ∀ v, t.told = some v → v ∈ t.world.got ∧
        c <:+ (path B (v.number - (B r).number) v.id).reverse ++ [(B r).parent] ∧
        c.length + t.world.src.events.length = (path B (v.number - (B r).number) v.id).length + 1 ∧
        (∀ e ∈ t.world.src.events, ∃ b, e = .inner (.block b)) ∧
        (t.world.src.events = [] → c = (path B (v.number - (B r).number) v.id).reverse ++ [(B r).parent]) := by
  subst ht
  obtain ⟨S, h⟩ := TInv.run as (TInv.start B d r nf p0) hs hf hp
  have hworld : ∀ (as : List ((Nat → Fault) × Orders × (List P → Except Unit (Option Ev)))) (t : Told P),
      (t.run (pointOf B nf r p0) nf as).world = t.world.runDb (pointOf B nf r p0) nf none as := by
    intro as
    induction as with
    | nil => exact fun _ => rfl
    | cons a as ih =>
      intro t
      have e : t.run (pointOf B nf r p0) nf (a :: as) = (t.step (pointOf B nf r p0) nf a).run (pointOf B nf r p0) nf as := rfl
      rw [e, ih, tstep_world]
      rfl
  have hw := hworld as (Told.start d (B r).parent)
  obtain ⟨c, h1, h2⟩ := h.chain
  have hB : ∀ v ∈ ((Told.start d (B r).parent).run (pointOf B nf r p0) nf as).world.got, B v.id = v :=
    fun v hv => (hf.ok v hv).1.symm
  generalize ht : (Told.start d (B r).parent).run (pointOf B nf r p0) nf as = t at *
  refine ⟨hw, h.failed, h.news, c, h1, fun hn => ⟨h.first hn, ?_⟩, fun v hv => ?_⟩
  · rw [hn] at h2
    have hlen := (consumeAll_length h.queue h2).1
    have hsuf := consumeAll_blocks h.queue h2
    have hc : c ≠ [] := fun hc => by
      have := (consumeAll_length h.queue h2).2 hc
      simp [chainTo] at this
    have h3 : 0 < c.length := List.length_pos_iff.2 hc
    exact hsuf.eq_of_length (by simp only [Option.map_none, chainTo, List.length_singleton] at hlen ⊢; omega)
  · have hm := h.mem v hv
    have e : chainTo B r (t.told.map Block.id) = (path B (v.number - (B r).number) v.id).reverse ++ [(B r).parent] := by
      rw [hv]
      simp only [chainTo, Option.map_some, hB v hm]
    rw [e] at h2
    have hlen := (consumeAll_length h.queue h2).1
    rw [List.length_append, List.length_reverse] at hlen
    refine ⟨hm, consumeAll_blocks h.queue h2, hlen.symm, fun e he => ?_, fun he => ?_⟩
    · have := h.queue e he
      cases e with
      | rollback p => cases this
      | inner x =>
        cases x with
        | tip n => cases this
        | block b => exact ⟨b, rfl⟩
    · rw [he] at h2
      exact Option.some.inj h2

/-- A decidable form of the conditions, with ancestors up to `n`. -/
def spacedCheck (B : Key → Block) (d : Nat) (r : Key) (pt : Key → Option P) (nf : Block → Option P) (n : Nat) :
    Told P → List ((Nat → Fault) × Orders × (List P → Except Unit (Option Ev))) → Bool
  | _, [] => true
  | t, a :: as => (t.hears pt nf a).all (fun v =>
      t.world.got.all (fun x => decide (x.number ≤ v.number + d + 1)) &&
      (decide (v ∈ t.world.got) || (!t.owed || !t.refused pt nf a) &&
        t.told.all (fun u => (List.range n).any (fun i => (List.range n).any (fun j =>
          decide ((B r).number + i ≤ v.number) && decide ((B r).number + j ≤ u.number) &&
          decide (anc B i v.id = anc B j u.id) &&
          (v :: t.world.got).all (fun x => decide (x.number + i ≤ v.number + d + 1))))))) &&
    spacedCheck B d r pt nf n (t.step pt nf a) as

theorem spaced_of_check {pt : Key → Option P} {n : Nat} : ∀ {as : List ((Nat → Fault) × Orders × (List P → Except Unit (Option Ev)))}
    {t : Told P}, (∀ a ∈ as, a.2.1.Ok) → spacedCheck B d r pt nf n t as = true → Spaced B d r pt nf t as
  | [], _, _, _ => trivial
  | a :: as, t, ho, h => by
    simp only [spacedCheck, Bool.and_eq_true, decide_eq_true_eq] at h
    obtain ⟨h2, h3⟩ := h
    refine ⟨ho a (by simp), fun v hv => ?_, spaced_of_check (fun b hb => ho b (List.mem_cons_of_mem _ hb)) h3⟩
    have h4 := List.all_eq_true.1 h2 v hv
    simp only [Bool.and_eq_true, Bool.or_eq_true, decide_eq_true_eq] at h4
    refine ⟨fun x hx => by simpa using List.all_eq_true.1 h4.1 x hx, fun hn => ?_⟩
    rcases h4.2 with h5 | ⟨h5, h6⟩
    · exact absurd h5 hn
    · refine ⟨fun ho => by simpa [ho] using h5, fun u hu => ?_⟩
      rw [hu] at h6
      simp only [Option.all_some, List.any_eq_true, Bool.and_eq_true, decide_eq_true_eq] at h6
      obtain ⟨i, _, j, _, ⟨⟨g4, g5⟩, g6⟩, g7⟩ := h6
      exact ⟨i, j, g4, g5, g6, fun x hx => by simpa using List.all_eq_true.1 g7 x hx⟩

/-- The chain of `lineB`, by identifiers. -/
def lineAt (k : Key) : Block := lineB ((k.headD 0).toNat - 1)

/-- Two removals fail, with a pull between them that does not, and insertions too; the consumer drains the queue. -/
def healPulls : List ((Nat → Fault) × Orders × (List Key → Except Unit (Option Ev))) :=
  [(failAt 9 .lost, 0), (failAt 9 .lost, 0), (failAt 9 .lost, 1), (failAt 0 .lost, 2), (failAt 9 .lost, 2), (failAt 1 .lost, 3),
    (failAt 0 .kept, 4), (failAt 9 .lost, 4), (failAt 9 .lost, 4), (failAt 9 .lost, 4), (failAt 1 .kept, 5), (failAt 9 .lost, 6),
    (failAt 9 .lost, 6), (failAt 9 .lost, 6)].map fun a => (a.1, plainOrders, fun _ => .ok (some (.block (lineB a.2))))

example : ∃ t, t = (Told.start 1 (lineAt [1]).parent).run (pointOf lineAt idPoint [1] [0]) idPoint healPulls ∧
    Spaced lineAt 1 [1] (pointOf lineAt idPoint [1] [0]) idPoint (Told.start 1 (lineAt [1]).parent) healPulls ∧
    Feed lineAt [1] t.world.got ∧ FPoints idPoint [0] t.world.got ∧ t.told = some (lineB 6) ∧
    t.world.src.events = [] ∧ t.world.chain = some [[7], [6], [5], [4], [3], [2], [1], [0]] ∧
    ((List.range 14).map fun n => ((Told.start 1 (lineAt [1]).parent).run (pointOf lineAt idPoint [1] [0]) idPoint
      (healPulls.take (n + 1))).owed) =
      [false, false, false, false, false, true, true, false, false, false, true, false, false, false] := by
  refine ⟨_, rfl, spaced_of_check (n := 4) ?_ (by decide +kernel), feed_of_check (by decide +kernel), ⟨fun v hv => ⟨rfl, ?_⟩, ?_⟩,
    by decide +kernel, by decide +kernel, by decide +kernel, by decide +kernel⟩
  · intro a ha
    obtain ⟨b, _, rfl⟩ := List.mem_map.1 ha
    exact plainOrders_ok
  · have h : ∀ v ∈ ((Told.start 1 (lineAt [1]).parent).run (pointOf lineAt idPoint [1] [0]) idPoint healPulls).world.got,
        idPoint v ≠ some [0] := by decide +kernel
    exact h v hv
  · have h : ∀ u ∈ ((Told.start 1 (lineAt [1]).parent).run (pointOf lineAt idPoint [1] [0]) idPoint healPulls).world.got,
        ∀ v ∈ ((Told.start 1 (lineAt [1]).parent).run (pointOf lineAt idPoint [1] [0]) idPoint healPulls).world.got,
          idPoint u = idPoint v → u = v := by decide +kernel
    exact h

end Verif.Props
