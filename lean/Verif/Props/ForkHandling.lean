import Verif.Sources.RollbackWorld
import Verif.Props.MultiverseSource

/-!
# C25: the fork handling source

The consumer keeps a chain of blocks, newest first, that begins with the parent of the first block `r`, at
position `p0`. A block event must follow the head of the chain, a rollback must be to a position on the chain
(`consume`); an event that does not fit makes the chain `none`. The consumer pulls from the position of the
head of its chain. `got` are the blocks delivered by the inner source, newest first.
-/

namespace Verif.Props

open Verif.Multiverse Verif.Sources

variable {P : Type} [DecidableEq P] {B : Key → Block} {d : Nat} {r : Key} {nf : Block → Option P} {p0 : P}

/-- C25, for forks that do not begin more than `d + 1` blocks below the highest block, and restarts at quiet
moments: all events fit and nothing fails; at every moment the chain is part of the one up to the block
that was last delivered for the first time, of which the rest is queued, block by block; when the queue is
drained the chain is that one. Missing: longer forks, and restarts at other moments, for which
this is false. -/
theorem C25_valid_partial {as : List (FAct P)} (ha : ∀ a ∈ as, a.Ok) {w : FWorld P}
    (hw : w = (FWorld.start d (B r).parent).run (pointOf B nf r p0) nf as)
    (hq : QuietRestarts (pointOf B nf r p0) nf (FWorld.start d (B r).parent) as)
    (hf : Feed B r w.got) (hp : FPoints nf p0 w.got) (hs : Shallow B d r w.got) :
    w.failed = none ∧ ∃ c, w.chain = some c ∧
      (w.got = [] → c = [(B r).parent]) ∧
      ∀ v, lastNew w.got = some v →
        c <:+ (path B (v.number - (B r).number) v.id).reverse ++ [(B r).parent] ∧
        c.length + w.src.events.length = (path B (v.number - (B r).number) v.id).length + 1 ∧
        (∀ e ∈ w.src.events, ∃ b, e = .inner (.block b)) ∧
        (w.src.events = [] → c = (path B (v.number - (B r).number) v.id).reverse ++ [(B r).parent]) := by
  subst hw
  obtain ⟨S, h⟩ := FInv.run (FInv.start B d r nf p0) ha hq hf hp hs
  obtain ⟨c, h1, h2⟩ := h.chain
  have hB : ∀ v ∈ ((FWorld.start d (B r).parent).run (pointOf B nf r p0) nf as).got, B v.id = v :=
    fun v hv => (hf.ok v hv).1.symm
  generalize hw : (FWorld.start d (B r).parent).run (pointOf B nf r p0) nf as = w at *
  refine ⟨h.failed, c, h1, fun hg => ?_, fun v hv => ?_⟩
  · have hl := h.last
    rw [hg] at hl
    rw [h.idle hg, hl] at h2
    exact Option.some.inj h2
  · have e : chainTo B r w.src.last = (path B (v.number - (B r).number) v.id).reverse ++ [(B r).parent] := by
      rw [h.last, hv]
      simp only [chainTo, Option.map_some, hB v (lastNew_mem hv)]
    rw [e] at h2
    have hlen := (consumeAll_length h.queue h2).1
    rw [List.length_append, List.length_reverse] at hlen
    refine ⟨consumeAll_blocks h.queue h2, hlen.symm, fun e he => ?_, fun he => ?_⟩
    · have := h.queue e he
      cases e with
      | rollback p => cases this
      | inner x =>
        cases x with
        | tip k => cases this
        | block b => exact ⟨b, rfl⟩
    · rw [he] at h2
      exact Option.some.inj h2

/-- C25: queued events are delivered one by one, before the inner source is asked again. -/
theorem C25_queue (s : FSrc P) {e : FEv P} {es : List (FEv P)} (h : s.events = e :: es) (o : Orders)
    (from' : Option P) (resp : List P → Except Unit (Option Ev)) :
    s.pull nf o from' resp = ⟨.ok (some e), none, { s with events := es }⟩ := by
  simp only [FSrc.pull, h]

/-- Answers of the inner source without a new block, when nothing is queued: a tip is passed on, nothing or a known block
gives nothing, a failure is a failure, and the source stays as it is. -/
theorem C25_answers (s : FSrc P) (h : s.events = []) (o : Orders) (from' : Option P) {ps : List P}
    (hp : s.request nf o from' = .ok ps) (resp : List P → Except Unit (Option Ev)) :
    (∀ n, resp ps = .ok (some (.tip n)) → s.pull nf o from' resp = ⟨.ok (some (.inner (.tip n))), some ps, s⟩) ∧
    (resp ps = .ok none → s.pull nf o from' resp = ⟨.ok none, some ps, s⟩) ∧
    (∀ v, resp ps = .ok (some (.block v)) → s.mv.get v.id ≠ none → s.pull nf o from' resp = ⟨.ok none, some ps, s⟩) ∧
    (resp ps = .error () → s.pull nf o from' resp = ⟨.error .inner, some ps, s⟩) := by
  refine ⟨fun n hn => ?_, fun hn => ?_, fun v hn hv => ?_, fun hn => ?_⟩
  · simp only [FSrc.pull, h, hp, hn, FSrc.answer]
  · simp only [FSrc.pull, h, hp, hn, FSrc.answer]
  · simp only [FSrc.pull, h, hp, hn, FSrc.answer, Option.isSome_iff_ne_none.2 hv, if_true]
  · simp only [FSrc.pull, h, hp, hn, FSrc.answer]

/-! ### Samples -/

/-- A pull that delivers the block. -/
def fdeliver (k : Key) : FAct Key := .pull plainOrders (fun _ => .ok (some (.block (treeB k))))

/-- The consumer of the samples. -/
def frun (d : Nat) (as : List (FAct Key)) : FWorld Key :=
  (FWorld.start d (treeB [0]).parent).run (pointOf treeB idPoint [0] [9]) idPoint as

theorem fdeliver_ok : ∀ ks : List Key, ∀ a ∈ ks.map fdeliver, a.Ok := by
  intro ks a ha
  obtain ⟨k, _, rfl⟩ := List.mem_map.1 ha
  exact plainOrders_ok

theorem fpoints_sample {D : List Block} (h : ∀ v ∈ D, v = treeB v.id ∧ v.id ≠ [9]) :
    FPoints idPoint [9] D := by
  refine ⟨fun v hv => ⟨rfl, fun he => (h v hv).2 (Option.some.inj he)⟩, fun u hu v hv he => ?_⟩
  rw [(h u hu).1, (h v hv).1, Option.some.inj he]

/-- A decidable form of the condition on forks, with ancestors up to `n`. -/
def shallowCheck (B : Key → Block) (d : Nat) (r : Key) (n : Nat) : List Block → Bool
  | [] => true
  | v :: D => shallowCheck B d r n D && D.all (fun x => decide (x.number ≤ v.number + d + 1)) &&
    (decide (v ∈ D) || (lastNew D).all (fun u => (List.range n).any (fun i => (List.range n).any (fun j =>
      decide ((B r).number + i ≤ v.number) && decide ((B r).number + j ≤ u.number) &&
      decide (anc B i v.id = anc B j u.id) &&
      (v :: D).all (fun x => decide (x.number + i ≤ v.number + d + 1))))))

theorem shallow_of_check {n : Nat} : ∀ {D : List Block}, shallowCheck B d r n D = true → Shallow B d r D
  | [], _ => trivial
  | v :: D, h => by
    simp only [shallowCheck, Bool.and_eq_true, Bool.or_eq_true, decide_eq_true_eq] at h
    obtain ⟨⟨h1, h2⟩, h3⟩ := h
    refine ⟨shallow_of_check h1, fun x hx => by simpa using List.all_eq_true.1 h2 x hx, fun hv u hu => ?_⟩
    rcases h3 with h3 | h3
    · exact absurd h3 hv
    · rw [hu] at h3
      simp only [Option.all_some, List.any_eq_true, Bool.and_eq_true, decide_eq_true_eq] at h3
      obtain ⟨i, _, j, _, ⟨⟨h4, h5⟩, h6⟩, h7⟩ := h3
      exact ⟨i, j, h4, h5, h6, fun x hx => by simpa using List.all_eq_true.1 h7 x hx⟩

/-- A fork of the sample: the consumer is told to go back from `[2]` to `[1]`. Each pull that delivers a
block of another branch is followed by pulls that drain the queue. -/
def switchActs : List (FAct Key) :=
  [[0], [0], [1], [2], [3], [3], [4], [5]].map fdeliver

example : ∃ w, w = frun 1 switchActs ∧ QuietRestarts (pointOf treeB idPoint [0] [9]) idPoint
      (FWorld.start 1 (treeB [0]).parent) switchActs ∧
    Feed treeB [0] w.got ∧ FPoints idPoint [9] w.got ∧ Shallow treeB 1 [0] w.got ∧ w.src.events = [] ∧
    w.got.map Block.id = [[5], [4], [3], [2], [1], [0]] ∧
    w.chain = some [[5], [4], [3], [1], [0], [9]] := by
  refine ⟨_, rfl, ?_, feed_of_check (by decide +kernel), fpoints_sample (by decide +kernel),
    shallow_of_check (n := 3) (by decide +kernel), by decide +kernel, by decide +kernel, by decide +kernel⟩
  simp [switchActs, QuietRestarts, fdeliver]

/-- A restart at a quiet moment. -/
example : QuietRestarts (pointOf treeB idPoint [0] [9]) idPoint (FWorld.start 1 (treeB [0]).parent)
    [fdeliver [0], fdeliver [0], fdeliver [1], .restart plainOrders id, fdeliver [2]] := by
  refine ⟨by simp [fdeliver], by simp [fdeliver], by simp [fdeliver], ?_, by simp [fdeliver], trivial⟩
  intro o it _
  refine ⟨by decide +kernel, fun x hx => ?_⟩
  have e : lastNew (frun 1 [fdeliver [0], fdeliver [0], fdeliver [1]]).got = some (treeB [1]) := by
    decide +kernel
  obtain rfl : treeB [1] = x := Option.some.inj (e.symm.trans hx)
  have e2 : ∀ y ∈ (frun 1 [fdeliver [0], fdeliver [0], fdeliver [1]]).got, y ≠ treeB [1] →
      y.number < (treeB [1]).number := by decide +kernel
  exact e2

/-- C25 is false of longer forks: the block after the fork is delivered without rollback. -/
theorem C25_deep_fork_false : ¬ ∀ (d : Nat) (as : List (FAct Key)), (∀ a ∈ as, a.Ok) →
    Feed treeB [0] (frun d as).got → FPoints idPoint [9] (frun d as).got → (frun d as).chain ≠ none := by
  intro h
  exact h 0 ([[0], [0], [1], [3], [4], [2]].map fdeliver) (fdeliver_ok _) (feed_of_check (by decide +kernel))
    (fpoints_sample (by decide +kernel)) (by decide +kernel)

/-- C25 is false of late blocks: a block far below the highest one makes the source panic. -/
theorem C25_late_block_false : ¬ ∀ (d : Nat) (as : List (FAct Key)), (∀ a ∈ as, a.Ok) →
    Feed treeB [0] (frun d as).got → FPoints idPoint [9] (frun d as).got →
    (frun d as).failed ≠ some .panic := by
  intro h
  exact h 0 ([[0], [0], [1], [3], [4], [5], [2]].map fdeliver) (fdeliver_ok _)
    (feed_of_check (by decide +kernel)) (fpoints_sample (by decide +kernel)) (by decide +kernel)

/-- C25 is false after a restart with queued events: they are lost, and the next block does not fit. -/
theorem C25_restart_false : ¬ ∀ (d : Nat) (as : List (FAct Key)), (∀ a ∈ as, a.Ok) →
    Feed treeB [0] (frun d as).got → FPoints idPoint [9] (frun d as).got → Shallow treeB d [0] (frun d as).got →
    (frun d as).chain ≠ none := by
  intro h
  refine h 2 ([[0], [0], [1], [3]].map fdeliver ++ [.restart plainOrders id, fdeliver [2],
    .restart plainOrders id, fdeliver [4], fdeliver [4]]) ?_ (feed_of_check (by decide +kernel))
    (fpoints_sample (by decide +kernel)) (shallow_of_check (n := 3) (by decide +kernel)) (by decide +kernel)
  intro a ha
  rcases List.mem_append.1 ha with ha | ha
  · exact fdeliver_ok _ a ha
  · simp only [List.mem_cons, List.not_mem_nil, or_false] at ha
    rcases ha with rfl | rfl | rfl | rfl | rfl
    · exact ⟨plainOrders_ok, fun _ => .rfl⟩
    · exact plainOrders_ok
    · exact ⟨plainOrders_ok, fun _ => .rfl⟩
    · exact plainOrders_ok
    · exact plainOrders_ok

/-- C25 is false of a consumer without position: the first block makes the source panic. -/
theorem C25_no_position_false (d : Nat) {v : Block} (hv : v.number < 2 ^ 64) {o : Orders} (ho : o.Ok) :
    ((FWorld.start (P := P) d v.parent).src.pull nf o none (fun _ => .ok (some (.block v)))).res =
      .error .panic := by
  have hrel : Rel (fun _ => v) (MV.empty [] 0) (fun _ => none) := Rel.empty _ 0
  obtain ⟨sel, R, m', h1, _⟩ := insertAndGc_spec hrel (v := v) rfl hv ho d
  have ht : o.tips [] = [] := by simpa using ho.1 []
  have hr : (FWorld.start (P := P) d v.parent).src.request nf o none = .ok [] := by
    simp only [FSrc.request, FWorld.start, MV.empty, ht, tipChecks, FSrc.confirmedCheck]
    rfl
  have he : (FWorld.start (P := P) d v.parent).src.events = [] := rfl
  have hg : ((FWorld.start (P := P) d v.parent).src.mv.get v.id) = none := rfl
  simp only [FSrc.pull, he, hr, FSrc.answer, hg, Option.isSome_none, Bool.false_eq_true, if_false, FSrc.store]
  have h1' : insertAndGc (FWorld.start (P := P) d v.parent).src.mv o (FWorld.start (P := P) d v.parent).src.depth
    v = .ok (sel, m') := h1
  rw [h1']
  rfl

end Verif.Props
