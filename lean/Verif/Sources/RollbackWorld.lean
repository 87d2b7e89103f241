import Verif.Sources.RollbackLemmas

/-!
# The invariant of the fork handling source and its consumer
-/

namespace Verif.Sources

open Verif.Multiverse

set_option linter.unusedSectionVars false

variable {P : Type} [DecidableEq P] {B : Key → Block} {d : Nat} {r : Key} {D : List Block} {S : Tree}
  {nf : Block → Option P} {p0 : P}

/-- The block that was last delivered for the first time (of a list with the newest first). -/
def lastNew : List Block → Option Block
  | [] => none
  | v :: D => if v ∈ D then lastNew D else some v

/-- Forks are short: each delivered block is at most `d + 1` blocks below the highest one so far, and a block
delivered for the first time has with the one before it a common ancestor of which the same is true. -/
def Shallow (B : Key → Block) (d : Nat) (r : Key) : List Block → Prop
  | [] => True
  | v :: D => Shallow B d r D ∧ (∀ x ∈ D, x.number ≤ v.number + d + 1) ∧
    (v ∉ D → ∀ u, lastNew D = some u → ∃ i j, (B r).number + i ≤ v.number ∧ (B r).number + j ≤ u.number ∧
      anc B i v.id = anc B j u.id ∧ ∀ x ∈ v :: D, x.number + i ≤ v.number + d + 1)

theorem Shallow.append : ∀ {l : List Block}, Shallow B d r (l ++ D) → Shallow B d r D
  | [], h => h
  | _ :: _, h => Shallow.append h.1

theorem lastNew_mem : ∀ {D : List Block} {u : Block}, lastNew D = some u → u ∈ D
  | v :: D, u, h => by
    rw [lastNew] at h
    split at h
    · exact List.mem_cons_of_mem _ (lastNew_mem h)
    · rw [Option.some.inj h]
      simp

theorem lastNew_none : ∀ {D : List Block}, lastNew D = none → D = []
  | [], _ => rfl
  | v :: D, h => by
    rw [lastNew] at h
    split at h
    · rename_i hv
      rw [lastNew_none h] at hv
      cases hv
    · cases h

/-- A moment at which the source may be restarted: the consumer has drained the queue, and the last new
block is higher than all others. -/
def Quiet (w : FWorld P) : Prop :=
  w.src.events = [] ∧ ∀ x, lastNew w.got = some x → ∀ y ∈ w.got, y ≠ x → y.number < x.number

/-- Hash sets are iterated in any order. -/
def FAct.Ok : FAct P → Prop
  | .pull o _ => o.Ok
  | .restart o it => o.Ok ∧ ∀ l, (it l).Perm l

/-- Restarts happen at quiet moments. -/
def QuietRestarts (pt : Key → Option P) (nf : Block → Option P) : FWorld P → List (FAct P) → Prop
  | _, [] => True
  | w, a :: as => (∀ o it, a = .restart o it → Quiet w) ∧ QuietRestarts pt nf (w.step pt nf a) as

/-- The invariant. -/
structure FInv (B : Key → Block) (d : Nat) (r : Key) (nf : Block → Option P) (p0 : P) (w : FWorld P)
    (S : Tree) : Prop where
  rel : Rel B w.src.mv S
  sf : w.src.mv.storeFrom = 0
  depth : w.src.depth = d
  inv : Inv B d r w.got S
  conf : ∀ c, w.src.confirmed = some c → (S c).isSome
  last : w.src.last = (lastNew w.got).map Block.id
  chain : ∃ c, w.chain = some c ∧
    consumeAll (pointOf B nf r p0) c w.src.events = some (chainTo B r w.src.last)
  idle : w.got = [] → w.src.events = []
  failed : w.failed = none
  low : ∀ k, (S k).isSome → ∀ x ∈ w.got, x.number ≤ (B k).number + d + 1
  queue : ∀ e ∈ w.src.events, e.isBlock = true
  anc : ∀ c, w.src.confirmed = some c → ∃ x ∈ w.got, (B r).number + d ≤ x.number ∧ anc B d x.id = c
  deep : ∀ x ∈ w.got, (B r).number + d ≤ x.number → w.src.confirmed ≠ none
  roll : ∀ l v G, w.got = l ++ v :: G → v ∉ G → (∀ x ∈ l, x ∈ v :: G) → ∀ u, lastNew G = some u → ∀ i j,
    (B r).number + i ≤ v.number → (B r).number + j ≤ u.number → Sources.anc B i v.id = Sources.anc B j u.id →
    (∀ x ∈ v :: G, x.number + i ≤ v.number + d + 1) → w.src.events.length ≤ i

theorem FInv.start (B : Key → Block) (d : Nat) (r : Key) (nf : Block → Option P) (p0 : P) :
    FInv B d r nf p0 (FWorld.start d (B r).parent) (fun _ => none) where
  rel := Rel.empty B 0
  sf := rfl
  depth := rfl
  inv := Inv.nil B d r
  conf := by simp [FWorld.start]
  last := rfl
  chain := ⟨_, rfl, rfl⟩
  idle _ := rfl
  failed := rfl
  low := by simp
  queue := by simp [FWorld.start]
  anc := by simp [FWorld.start]
  deep := by simp [FWorld.start]
  roll := by simp [FWorld.start]

theorem fstep_got (pt : Key → Option P) (nf : Block → Option P) (w : FWorld P) (a : FAct P) :
    ∃ l, (w.step pt nf a).got = l ++ w.got := by
  cases a with
  | pull o resp => exact ⟨_, rfl⟩
  | restart o it =>
    refine ⟨[], ?_⟩
    simp only [FWorld.step]
    cases (reopenF w.src.mv w.src.depth o it : Except FErr (FSrc P)) <;> rfl

theorem frun_got (pt : Key → Option P) (nf : Block → Option P) : ∀ (as : List (FAct P)) (w : FWorld P),
    ∃ l, (w.run pt nf as).got = l ++ w.got
  | [], w => ⟨[], rfl⟩
  | a :: as, w => by
    obtain ⟨l, hl⟩ := frun_got pt nf as (w.step pt nf a)
    obtain ⟨l', hl'⟩ := fstep_got pt nf w a
    refine ⟨l ++ l', ?_⟩
    have e : w.run pt nf (a :: as) = (w.step pt nf a).run pt nf as := rfl
    rw [e, hl, hl', List.append_assoc]

/-- Events for a new block. -/
theorem FInv.events {w : FWorld P} (h : FInv B d r nf p0 w S) {v : Block} (hq : w.src.events = []) {m : MV}
    {S' : Tree} (hr : Rel B m S') (hi : Inv B d r (v :: w.got) S') (hf : Feed B r (v :: w.got))
    (hp : FPoints nf p0 (v :: w.got)) (hs : Shallow B d r (v :: w.got)) (hv : v ∉ w.got) :
    ∃ e es c, newEvents nf m w.src.last (position (pointOf B nf r p0) w.chain) v = .ok (e :: es) ∧
      w.chain = some c ∧ consumeAll (pointOf B nf r p0) c (e :: es) = some (chainTo B r (some v.id)) ∧
      ∀ u, lastNew w.got = some u → ∀ i j, (B r).number + i ≤ v.number → (B r).number + j ≤ u.number →
        Sources.anc B i v.id = Sources.anc B j u.id → (∀ x ∈ v :: w.got, x.number + i ≤ v.number + d + 1) → es.length ≤ i := by
  obtain ⟨c, hc, hcc⟩ := h.chain
  rw [hq] at hcc
  have hce : c = chainTo B r w.src.last := Option.some.inj hcc
  cases hl : lastNew w.got with
  | none =>
    have hD := lastNew_none hl
    have hlast : w.src.last = none := by rw [h.last, hl]; rfl
    rw [hlast] at hce
    have hvr : v.id = r := by
      rcases hf.order [] v w.got rfl with h1 | ⟨u, h1, _⟩
      · exact h1
      · rw [hD] at h1
        cases h1
    have hpar : v.parent = (B r).parent := by rw [← hvr, ← (hf.ok v (by simp)).1]
    have hpos : position (pointOf B nf r p0) w.chain = some p0 := by
      rw [hc, hce]
      simp [position, chainTo, pointOf]
    refine ⟨.rollback p0, [.inner (.block v)], c, ?_, hc, ?_, fun u hu => by cases hu⟩
    · rw [hpos, hlast]
      rfl
    · have h1 : consume (pointOf B nf r p0) [(B r).parent] (.rollback p0) = some [(B r).parent] := by
        have h2 : pointOf B nf r p0 (B r).parent = some p0 := by simp [pointOf]
        simp only [consume]
        rw [if_pos ⟨_, by simp, h2⟩, List.dropWhile_cons_of_neg (by simpa using h2)]
      rw [hce, chainTo_root hf (by simp) hvr]
      have h2 : consume (pointOf B nf r p0) [(B r).parent] (.inner (.block v)) =
          some [v.id, (B r).parent] := by
        simp [consume, hpar]
      rw [hpar]
      show consumeAll _ [(B r).parent] _ = _
      simp only [consumeAll, h1, h2]
  | some u =>
    have hu := lastNew_mem hl
    have hlast : w.src.last = some u.id := by rw [h.last, hl]; rfl
    rw [hlast] at hce
    rw [hlast]
    simp only [newEvents]
    by_cases he : u.id = v.parent
    · rw [if_pos he]
      have hn : v.number = u.number + 1 := by
        rcases hf.order [] v w.got rfl with h1 | ⟨x, h1, h2, h3⟩
        · exfalso
          refine hf.rootParent u (by simp [hu]) ?_
          rw [he, ← h1, ← (hf.ok v (by simp)).1]
        · have := hf.same (u := x) (v := u) (by simp [h1]) (by simp [hu]) (by rw [h2, he])
          rw [h3, this]
      refine ⟨_, [], c, rfl, hc, ?_, fun _ _ _ _ _ _ _ _ => Nat.zero_le _⟩
      rw [hce]
      simp only [consumeAll, consume_next hf (u := u) (v := v) (by simp [hu]) (by simp) he hn]
    · rw [if_neg he]
      obtain ⟨i, j, h1, h2, h3, h4⟩ := hs.2.2 hv u hl
      obtain ⟨es, h5, h6, _, h7⟩ := branchEvents_spec hr hi hf hp (u := u) (v := v) (by simp [hu]) (by simp)
        h1 h2 h3 h4
      rw [← hce] at h7
      cases es with
      | nil => exact absurd rfl h6
      | cons e es =>
        refine ⟨e, es, c, h5, hc, h7, fun u' hu' i' j' g1 g2 g3 g4 => ?_⟩
        obtain rfl := Option.some.inj hu'
        obtain ⟨es', k1, _, k2, _⟩ := branchEvents_spec hr hi hf hp (u := u) (v := v) (by simp [hu]) (by simp) g1 g2 g3 g4
        rw [h5] at k1
        rw [← Except.ok.inj k1] at k2
        simpa using k2

theorem FInv.pull {w : FWorld P} (h : FInv B d r nf p0 w S) {o : Orders} (ho : o.Ok)
    {resp : List P → Except Unit (Option Ev)}
    (hf : Feed B r (w.step (pointOf B nf r p0) nf (.pull o resp)).got)
    (hp : FPoints nf p0 (w.step (pointOf B nf r p0) nf (.pull o resp)).got)
    (hs : Shallow B d r (w.step (pointOf B nf r p0) nf (.pull o resp)).got) :
    ∃ S', FInv B d r nf p0 (w.step (pointOf B nf r p0) nf (.pull o resp)) S' := by
  obtain ⟨l, hl⟩ := fstep_got (pointOf B nf r p0) nf w (.pull o resp)
  have hf0 : Feed B r w.got := by rw [hl] at hf; exact hf.append
  have hp0 : FPoints nf p0 w.got := by rw [hl] at hp; exact hp.append
  have hnf : ∀ k, (S k).isSome → (nf (B k)).isSome := by
    intro k hk
    obtain ⟨v, hv, rfl⟩ := h.inv.sub k hk
    rw [← (hf0.ok v hv).1]
    exact (hp0.1 v hv).1
  obtain ⟨c, hc, hcc⟩ := h.chain
  cases hev : w.src.events with
  | cons e es =>
    have hstep : w.step (pointOf B nf r p0) nf (.pull o resp) =
        ⟨{ w.src with events := es }, follow (pointOf B nf r p0) w.chain (.ok (some e)), w.got, w.failed⟩ := by
      simp only [FWorld.step, FSrc.pull, hev, heard, ffailure]
      rfl
    rw [hstep]
    rw [hev, consumeAll] at hcc
    refine ⟨S, h.rel, h.sf, h.depth, h.inv, h.conf, h.last, ?_, fun hg => ?_, h.failed, h.low,
      fun x hx => h.queue x (by rw [hev]; exact List.mem_cons_of_mem _ hx), h.anc, h.deep,
      fun l v G h1 h2 h3 u h4 i j h5 h6 h7 h8 => ?_⟩
    rotate_left 2
    · have := h.roll l v G h1 h2 h3 u h4 i j h5 h6 h7 h8
      rw [hev, List.length_cons] at this
      simp only
      omega
    swap
    · have := h.idle hg
      rw [hev] at this
      cases this
    simp only [follow, hc, Option.bind_some]
    cases hce : consume (pointOf B nf r p0) c e with
    | none => rw [hce] at hcc; cases hcc
    | some c' =>
      rw [hce] at hcc
      exact ⟨c', rfl, hcc⟩
  | nil =>
    obtain ⟨ps, hreq⟩ := FSrc.request_ok h.rel hnf h.conf ho (position (pointOf B nf r p0) w.chain)
    have hstep : w.step (pointOf B nf r p0) nf (.pull o resp) =
        ⟨(w.src.answer nf o (position (pointOf B nf r p0) w.chain) (resp ps)).2,
          follow (pointOf B nf r p0) w.chain
            (w.src.answer nf o (position (pointOf B nf r p0) w.chain) (resp ps)).1,
          (blockOf (resp ps)).toList ++ w.got,
          (ffailure (w.src.answer nf o (position (pointOf B nf r p0) w.chain) (resp ps)).1).or w.failed⟩ := by
      simp only [FWorld.step, FSrc.pull, hev, hreq, heard]
    rw [hstep] at hf hp hs ⊢
    generalize hx : resp ps = x at hf hp hs ⊢
    have same : FInv B d r nf p0 ⟨w.src, w.chain, w.got, w.failed⟩ S := h
    cases x with
    | error e => exact ⟨S, same⟩
    | ok y =>
      cases y with
      | none => exact ⟨S, same⟩
      | some ev =>
        cases ev with
        | tip n =>
          simp only [FSrc.answer, follow, hc, Option.bind_some, consume]
          rw [← hc]
          exact ⟨S, same⟩
        | block v =>
          simp only [blockOf, Option.toList_some, List.singleton_append] at hf hp hs ⊢
          simp only [FSrc.answer]
          by_cases hst : (S v.id).isSome
          · have hg : (w.src.mv.get v.id).isSome := by rw [h.rel.get, if_pos hst]; rfl
            simp only [hg, if_true]
            obtain ⟨h1, h2⟩ := h.inv.again hf hst
            have hin : ∀ x ∈ v :: w.got, x ∈ w.got := by
              intro x hx
              rcases List.mem_cons.1 hx with rfl | hx
              · exact h2
              · exact hx
            refine ⟨S, h.rel, h.sf, h.depth, h1, h.conf, ?_, ⟨c, hc, hcc⟩, by simp, h.failed,
              fun k hk x hx => h.low k hk x (hin x hx), h.queue, fun c hc => ?_, fun x hx => h.deep x (hin x hx),
              fun l v' G g1 g2 g3 => ?_⟩
            rotate_left 2
            · cases l with
              | nil =>
                obtain ⟨rfl, rfl⟩ := List.cons.inj g1
                exact absurd h2 g2
              | cons y l =>
                obtain ⟨_, g4⟩ := List.cons.inj g1
                exact h.roll l v' G g4 g2 (fun x hx => g3 x (List.mem_cons_of_mem _ hx))
            rotate_right 1
            · obtain ⟨x, hx, h3⟩ := h.anc c hc
              exact ⟨x, List.mem_cons_of_mem _ hx, h3⟩
            show w.src.last = _
            rw [lastNew, if_pos h2]
            exact h.last
          · have hg : ¬ (w.src.mv.get v.id).isSome := by rw [h.rel.get, if_neg hst]; simp
            simp only [hg, Bool.false_eq_true, if_false]
            have hv : v ∉ w.got := by
              intro hm
              exact hst (h.inv.keep v hm hs.2.1)
            obtain ⟨sel, R, m', h1, h2, h3, h4⟩ := insertAndGc_spec h.rel (hf.ok v (by simp)).1
              (hf.ok v (by simp)).2 ho w.src.depth
            rw [h.depth] at h4
            obtain ⟨m1, _, _, _, h2', _⟩ := insertAndSelect_spec h.rel (hf.ok v (by simp)).1
              (hf.ok v (by simp)).2 ho w.src.depth
            have hi1 := h.inv.insert hf (by simpa using hst) w.src.mv.storeFrom
            have hi2 := hi1.dropLow hf (hi1.selected_low hf h2' h4)
            obtain ⟨e, es, c', h5, h6, h7, h8⟩ := h.events hev h2 hi2 hf hp hs hv
            have hstore : w.src.store nf o (position (pointOf B nf r p0) w.chain) v =
                (.ok (some e), ⟨m', w.src.depth, newConfirmed w.src.confirmed sel, some v.id, es⟩) := by
              unfold FSrc.store
              rw [h1]
              simp only [h5]
            rw [hstore]
            obtain ⟨top, t1, t2, t3⟩ := h4.top
            obtain ⟨t, ht, hmax, hsel⟩ := hi1.selected_anc hf h2' t1 t2 t3
            refine ⟨_, h2, by rw [← h.sf]; exact h3, h.depth, hi2, confirmed_kept h4 h.conf, ?_, ?_, by simp,
              h.failed, hi1.low hf h2' h4, newEvents_queue h5, fun c hc => ?_, fun x hx hle => ?_, fun l v' G g1 g2 g3 => ?_⟩
            rotate_left 2
            · simp only at hc
              cases hs' : sel with
              | none =>
                rw [hs'] at hc
                obtain ⟨x, hx, h8⟩ := h.anc c hc
                exact ⟨x, List.mem_cons_of_mem _ hx, h8⟩
              | some c1 =>
                rw [hs'] at hc hsel
                obtain rfl : c1 = c := Option.some.inj hc
                split at hsel
                · rename_i hle
                  exact ⟨t, ht, hle, (Option.some.inj hsel).symm⟩
                · cases hsel
            · have := hmax x hx
              rw [if_pos (by omega)] at hsel
              rw [hsel]
              simp [newConfirmed]
            · cases l with
              | nil =>
                obtain ⟨rfl, rfl⟩ := List.cons.inj g1
                exact h8
              | cons y l =>
                obtain ⟨rfl, g4⟩ := List.cons.inj g1
                exfalso
                refine hv ?_
                rw [g4]
                exact List.mem_append.2 (.inr (g3 v (by simp)))
            · simp only [lastNew, if_neg hv, Option.map_some]
            · simp only [follow, h6, Option.bind_some]
              rw [consumeAll] at h7
              cases hce : consume (pointOf B nf r p0) c' e with
              | none => rw [hce] at h7; cases h7
              | some c2 =>
                rw [hce] at h7
                exact ⟨c2, rfl, h7⟩

theorem FInv.restart {w : FWorld P} (h : FInv B d r nf p0 w S) {o : Orders} (ho : o.Ok)
    {it : List Ref → List Ref} (hit : ∀ l, (it l).Perm l) (hf : Feed B r w.got) (hq : Quiet w) :
    ∃ S', FInv B d r nf p0 (w.step (pointOf B nf r p0) nf (.restart o it)) S' := by
  obtain ⟨m', h1, h2, h3⟩ := h.rel.reopen w.src.mv.storeFrom
  have hns : NoStale m' (fun _ => false) := fun _ _ _ _ _ _ hf => by cases hf
  obtain ⟨sel, disc, h4, h5, h6⟩ := h2.selected hns ho.2.1 d 0
  have hinv := h.inv.reopen hf h.rel h.sf
  have hlast : (m'.iter it).getLast?.map Block.id = (lastNew w.got).map Block.id := by
    obtain ⟨g1, g2, g3⟩ := h2.iter hit
    cases hl : lastNew w.got with
    | none =>
      have hD := lastNew_none hl
      have : m'.iter it = [] := by
        rw [List.eq_nil_iff_forall_not_mem]
        intro b hb
        obtain ⟨k, _, hk⟩ := g2 b hb
        obtain ⟨v, hv, _⟩ := hinv.sub k hk
        rw [hD] at hv
        cases hv
      rw [this]
      rfl
    | some x =>
      have hx := lastNew_mem hl
      have hmax := hq.2 x hl
      have hxs : (specReopen B S x.id).isSome := hinv.keep x hx (fun y hy => by
        by_cases he : y = x
        · rw [he]
          omega
        · have := hmax y hy he
          omega)
      obtain ⟨b, hb, hbn⟩ := g3 _ hxs
      rw [← (hf.ok x hx).1] at hbn
      cases hgl : (m'.iter it).getLast? with
      | none =>
        rw [List.getLast?_eq_none_iff] at hgl
        rw [hgl] at hb
        cases hb
      | some y =>
        have hy := List.mem_of_getLast? hgl
        have hby : b.number ≤ y.number := by
          obtain ⟨ys, hys⟩ := List.getLast?_eq_some_iff.1 hgl
          rw [hys] at g1 hb
          rcases List.mem_append.1 hb with hb | hb
          · exact Nat.le_of_lt ((List.pairwise_append.1 g1).2.2 b hb y (by simp))
          · rw [List.mem_singleton.1 hb]
        obtain ⟨k, hk, hks⟩ := g2 y hy
        obtain ⟨v, hv, hvk⟩ := hinv.sub k hks
        have hyv : y = v := by rw [hk, ← hvk]; exact (hf.ok v hv).1.symm
        have : v = x := by
          by_contra hne
          have := hmax v hv hne
          rw [← hyv] at this
          omega
        rw [hyv, this]
  have hd := h.depth
  have hstep : w.step (pointOf B nf r p0) nf (.restart o it) =
      { w with src := ⟨m', d, sel.map Ref.key, (m'.iter it).getLast?.map Block.id, []⟩ } := by
    simp only [FWorld.step, reopenF, h1, FSrc.new, hd, h4]
    rfl
  rw [hstep]
  obtain ⟨c, hc, hcc⟩ := h.chain
  have hlow : ∀ k, (specReopen B S k).isSome → ∀ x ∈ w.got, x.number ≤ (B k).number + d + 1 := by
    intro k hk
    refine h.low k ?_
    unfold specReopen at hk
    split at hk
    · rename_i hk'
      unfold isSaved at hk'
      cases hS : S k with
      | none => rw [hS] at hk'; cases hk'
      | some b => rfl
    · cases hk
  have hconf : ∀ x ∈ w.got, ∃ t ∈ w.got, (∀ y ∈ w.got, y.number ≤ t.number) ∧
      sel.map Ref.key = if (B r).number + d ≤ t.number then some (Sources.anc B d t.id) else none := by
    intro x hx
    rcases h6 with ⟨_, h6⟩ | ⟨top, t1, t2, t3⟩
    · exfalso
      obtain ⟨t, ht, hm⟩ := exists_top (List.ne_nil_of_mem hx)
      have := hinv.keep t ht (fun y hy => by have := hm y hy; omega)
      rw [h6] at this
      cases this
    · exact hinv.selected_anc hf h2 t1 t2 t3
  refine ⟨_, h2, by rw [h3, h.sf], rfl, hinv, ?_, hlast, ⟨c, hc, ?_⟩, fun _ => rfl, h.failed, hlow, by simp,
    fun c hc => ?_, fun x hx hle => ?_, fun _ _ _ _ _ _ _ _ _ _ _ _ _ _ => Nat.zero_le _⟩
  rotate_left 2
  · have hne : w.got ≠ [] := by
      intro hD
      obtain ⟨y, hy, rfl⟩ := Option.map_eq_some_iff.1 hc
      obtain ⟨v, hv, _⟩ := hinv.sub _ (h5 y hy)
      rw [hD] at hv
      cases hv
    obtain ⟨x, hx⟩ := List.exists_mem_of_ne_nil _ hne
    obtain ⟨t, ht, _, h8⟩ := hconf x hx
    simp only at hc
    rw [hc] at h8
    split at h8
    · rename_i hle
      exact ⟨t, ht, hle, (Option.some.inj h8).symm⟩
    · cases h8
  · obtain ⟨t, ht, hm, h8⟩ := hconf x hx
    have := hm x hx
    rw [if_pos (by omega)] at h8
    simp only
    rw [h8]
    simp
  · intro c' hc'
    obtain ⟨x, hx, rfl⟩ := Option.map_eq_some_iff.1 hc'
    exact h5 x hx
  · rw [hq.1] at hcc
    simp only
    rw [hlast, ← h.last]
    exact hcc

theorem FInv.run : ∀ {as : List (FAct P)} {w : FWorld P} {S : Tree}, FInv B d r nf p0 w S →
    (∀ a ∈ as, a.Ok) → QuietRestarts (pointOf B nf r p0) nf w as →
    Feed B r (w.run (pointOf B nf r p0) nf as).got → FPoints nf p0 (w.run (pointOf B nf r p0) nf as).got →
    Shallow B d r (w.run (pointOf B nf r p0) nf as).got →
    ∃ S', FInv B d r nf p0 (w.run (pointOf B nf r p0) nf as) S'
  | [], w, S, h, _, _, _, _, _ => ⟨S, h⟩
  | a :: as, w, S, h, ha, hq, hf, hp, hs => by
    have e : w.run (pointOf B nf r p0) nf (a :: as) =
        (w.step (pointOf B nf r p0) nf a).run (pointOf B nf r p0) nf as := rfl
    rw [e] at hf hp hs ⊢
    obtain ⟨l, hl⟩ := frun_got (pointOf B nf r p0) nf as (w.step (pointOf B nf r p0) nf a)
    have hf1 := hf
    have hp1 := hp
    have hs1 := hs
    rw [hl] at hf1 hp1 hs1
    obtain ⟨S1, h1⟩ : ∃ S', FInv B d r nf p0 (w.step (pointOf B nf r p0) nf a) S' := by
      cases a with
      | pull o resp => exact h.pull (ha (.pull o resp) (by simp)) hf1.append hp1.append hs1.append
      | restart o it =>
        have hok := ha (.restart o it) (by simp)
        obtain ⟨l', hl'⟩ := fstep_got (pointOf B nf r p0) nf w (.restart o it)
        have hf2 := hf1.append
        rw [hl'] at hf2
        exact h.restart hok.1 hok.2 hf2.append (hq.1 o it rfl)
    exact h1.run (fun a' ha' => ha a' (List.mem_cons_of_mem _ ha')) hq.2 hf hp hs

end Verif.Sources
