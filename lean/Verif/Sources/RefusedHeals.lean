import Verif.Sources.RefusedFork

/-!
# The fork handling source over a database that fails now and then
-/

namespace Verif.Sources

open Verif.Multiverse

set_option linter.unusedSectionVars false

variable {P : Type} [DecidableEq P] {B : Key → Block} {d : Nat} {r : Key} {D : List Block} {S : Tree}
  {nf : Block → Option P} {p0 : P}

/-- A consumer that pulls on after errors, with what an observer notes: the block whose events the consumer was last given or
has in the queue, and whether a pull with a new block has failed since. -/
structure Told (P : Type) where
  world : FWorld P
  told : Option Block
  owed : Bool

/-- The first state. -/
def Told.start (d : Nat) (k : Key) : Told P := ⟨FWorld.start d k, none, false⟩

/-- Whether a pull fails for the database. -/
def Told.refused (pt : Key → Option P) (nf : Block → Option P) (t : Told P)
    (a : (Nat → Fault) × Orders × (List P → Except Unit (Option Ev))) : Bool :=
  match (t.world.src.pullF nf a.2.1 a.1 (position pt t.world.chain) a.2.2).res with
  | .error .db => true
  | _ => false

/-- The blocks that the inner source delivers in a pull, one at most, but for those whose insertion fails. -/
def Told.hears (pt : Key → Option P) (nf : Block → Option P) (t : Told P)
    (a : (Nat → Fault) × Orders × (List P → Except Unit (Option Ev))) : List Block :=
  if t.refused pt nf a = true ∧ a.1 0 ≠ .fine then []
  else heard a.2.2 (t.world.src.pullF nf a.2.1 a.1 (position pt t.world.chain) a.2.2).asked

/-- One pull. -/
def Told.step (pt : Key → Option P) (nf : Block → Option P) (t : Told P)
    (a : (Nat → Fault) × Orders × (List P → Except Unit (Option Ev))) : Told P :=
  match (t.hears pt nf a).filter (fun v => v ∉ t.world.got) with
  | [] => ⟨t.world.stepDb pt nf none a, t.told, t.owed⟩
  | v :: _ =>
    if t.refused pt nf a then ⟨t.world.stepDb pt nf none a, t.told, true⟩
    else ⟨t.world.stepDb pt nf none a, some v, false⟩

/-- A list of pulls. -/
def Told.run (pt : Key → Option P) (nf : Block → Option P) (t : Told P)
    (as : List ((Nat → Fault) × Orders × (List P → Except Unit (Option Ev)))) : Told P := as.foldl (Told.step pt nf) t

/-- Forks are short, as in `Shallow`, but seen from the block last told; and after a removal failed, no removal of the next pull
with a new block fails. -/
def Spaced (B : Key → Block) (d : Nat) (r : Key) (pt : Key → Option P) (nf : Block → Option P) :
    Told P → List ((Nat → Fault) × Orders × (List P → Except Unit (Option Ev))) → Prop
  | _, [] => True
  | t, a :: as => a.2.1.Ok ∧
    (∀ v ∈ t.hears pt nf a, (∀ x ∈ t.world.got, x.number ≤ v.number + d + 1) ∧
      (v ∉ t.world.got → (t.owed = true → t.refused pt nf a = false) ∧
        ∀ u, t.told = some u → ∃ i j, (B r).number + i ≤ v.number ∧ (B r).number + j ≤ u.number ∧
          anc B i v.id = anc B j u.id ∧ ∀ x ∈ v :: t.world.got, x.number + i ≤ v.number + d + 1)) ∧
    Spaced B d r pt nf (t.step pt nf a) as

/-! ## Lemmas -/

theorem gcF_mem (keep : List Ref) (ft : Nat → Fault) : ∀ (rs : List Ref) (i : Nat) (m : MV) (db : AMap (List UInt8) Block),
    (∃ m' db', gcF keep ft i (m.withDb db) rs = (.ok (), m'.withDb db') ∧ gc keep m rs = .ok m') ∨
    (∃ e, gc keep m rs = .error e) ∨
    ∃ m' db' n, rs ≠ [] ∧ gcF keep ft i (m.withDb db) rs = (.error .db, m'.withDb db') ∧
      gc (keep ++ rs.drop n) m (rs.take n) = .ok m'
  | [], i, m, db => .inl ⟨m, db, rfl, rfl⟩
  | r :: rs, i, m, db => by
    cases h : m.remove (fun a => (keep ++ r :: rs).any (fun x => x.arc == a)) r.key with
    | error e => exact .inr (.inl ⟨e, by simp only [gc, h]⟩)
    | ok x =>
      have hw : (m.withDb db).remove (fun a => (keep ++ r :: rs).any (fun x => x.arc == a)) r.key =
          .ok (x.1, x.2.withDb (AMap.erase db (mkKey x.1.number r.key))) := by
        rw [remove_withDb, h]
        rfl
      have hone : gc (keep ++ (r :: rs).drop 1) m ((r :: rs).take 1) = .ok x.2 := by
        rw [List.drop_succ_cons, List.take_succ_cons, List.drop_zero, List.take_zero, gc]
        have := held_perm keep [] rs r
        rw [List.nil_append] at this
        rw [← this, h]
        rfl
      cases hf : ft i with
      | fine =>
        have e1 : gcF keep ft i (m.withDb db) (r :: rs) =
            gcF keep ft (i + 1) (x.2.withDb (AMap.erase db (mkKey x.1.number r.key))) rs := by
          simp only [gcF, MV.removeF, hw, hf]
        have e2 : gc keep m (r :: rs) = gc keep x.2 rs := by simp only [gc, h]
        rw [e1, e2]
        rcases gcF_mem keep ft rs (i + 1) x.2 (AMap.erase db (mkKey x.1.number r.key)) with h1 | h1 | ⟨m', db', n, _, h1, h2⟩
        · exact .inl h1
        · exact .inr (.inl h1)
        · refine .inr (.inr ⟨m', db', n + 1, by simp, h1, ?_⟩)
          rw [List.drop_succ_cons, List.take_succ_cons, gc, ← held_perm, List.take_append_drop, h]
          exact h2
      | lost =>
        refine .inr (.inr ⟨x.2, db, 1, by simp, ?_, hone⟩)
        simp only [gcF, MV.removeF, hw, hf]
        rfl
      | kept =>
        refine .inr (.inr ⟨x.2, AMap.erase db (mkKey x.1.number r.key), 1, by simp, ?_, hone⟩)
        simp only [gcF, MV.removeF, hw, hf]

/-- A new block over any database, some of whose removals fail. -/
theorem insertAndGcF_mem {m : MV} (db : AMap (List UInt8) Block) {o : Orders} {depth : Nat} {v : Block} {ft : Nat → Fault}
    (hft : ft 0 = .fine) (hv : AMap.get m.all v.id = none) {x : MV × Option Ref × List Ref}
    (hs : insertAndSelect m o depth v = .ok x) :
    (∃ m' db' sel, insertAndGcF (m.withDb db) o depth v ft = (.ok sel, m'.withDb db') ∧ insertAndGc m o depth v = .ok (sel, m')) ∨
    (∃ e, insertAndGc m o depth v = .error e) ∨
    ∃ m' db' n, x.2.2 ≠ [] ∧ insertAndGcF (m.withDb db) o depth v ft = (.error .db, m'.withDb db') ∧
      insertAndDie m o depth v n = .ok m' := by
  have hs' := hs
  unfold insertAndSelect at hs
  rw [insert_absent m v hv] at hs
  cases hi : m.insertMem v with
  | error e => rw [hi] at hs; cases hs
  | ok m1 =>
    rw [hi] at hs
    have e2 : (Except.ok m1 : Except MvErr MV).map (·.withDb (m.dbInsert v).2.db) = .ok (m1.withDb (m.dbInsert v).2.db) := rfl
    rw [e2] at hs
    simp only [selectBest_withDb] at hs
    cases hb : m1.selectBest (fun _ => false) o.best depth 1 with
    | error e => rw [hb] at hs; cases hs
    | ok y =>
      rw [hb] at hs
      have hx := Except.ok.inj hs
      have hins : (m.withDb db).insertF (ft 0) v = (.ok (), m1.withDb ((m.withDb db).dbInsert v).2.db) := by
        unfold MV.insertF
        rw [if_neg (by rw [hft]; simp), insert_absent (m.withDb db) v hv, insertMem_withDb, hi]
        rfl
      have hF : insertAndGcF (m.withDb db) o depth v ft =
          match gcF y.1.toList ft 1 (m1.withDb ((m.withDb db).dbInsert v).2.db) (discardList o y) with
          | (.error e, m') => (.error e, m')
          | (.ok _, m2) => (.ok (y.1.map Ref.key), m2) := by
        simp only [insertAndGcF, hins, selectBest_withDb, hb]
        rfl
      have hG : insertAndGc m o depth v =
          match gc y.1.toList (m1.withDb (m.dbInsert v).2.db) (discardList o y) with
          | .error e => .error e
          | .ok m2 => .ok (y.1.map Ref.key, m2) := by
        simp only [insertAndGc, hs', ← hx]
        rfl
      have hD : ∀ n, insertAndDie m o depth v n =
          gc (y.1.toList ++ (discardList o y).drop n) (m1.withDb (m.dbInsert v).2.db) ((discardList o y).take n) := by
        intro n
        simp only [insertAndDie, hs', ← hx]
      have hm : m1.withDb ((m.withDb db).dbInsert v).2.db =
          (m1.withDb (m.dbInsert v).2.db).withDb ((m.withDb db).dbInsert v).2.db := rfl
      rw [hm] at hF
      rcases gcF_mem y.1.toList ft (discardList o y) 1 (m1.withDb (m.dbInsert v).2.db) ((m.withDb db).dbInsert v).2.db with
        ⟨m', db', h1, h2⟩ | ⟨e, h1⟩ | ⟨m', db', n, h0, h1, h2⟩
      · exact .inl ⟨m', db', _, by rw [hF, h1], by rw [hG, h2]⟩
      · exact .inr (.inl ⟨e, by rw [hG, h1]⟩)
      · exact .inr (.inr ⟨m', db', n, by rw [← hx]; exact h0, by rw [hF, h1], by rw [hD, h2]⟩)

/-- Events for a new block, told after `last`. -/
theorem newEvents_told {last : Option Block} {c : List Key} (hc : c = chainTo B r (last.map Block.id))
    (hmem : ∀ u, last = some u → u ∈ D) (hnone : last = none → D = []) {v : Block} {m : MV} (hr : Rel B m S)
    (hi : Inv B d r (v :: D) S) (hf : Feed B r (v :: D)) (hp : FPoints nf p0 (v :: D))
    (hs : ∀ u, last = some u → ∃ i j, (B r).number + i ≤ v.number ∧ (B r).number + j ≤ u.number ∧
      anc B i v.id = anc B j u.id ∧ ∀ x ∈ v :: D, x.number + i ≤ v.number + d + 1) :
    ∃ e es, newEvents nf m (last.map Block.id) (position (pointOf B nf r p0) (some c)) v = .ok (e :: es) ∧
      consumeAll (pointOf B nf r p0) c (e :: es) = some (chainTo B r (some v.id)) := by
  cases last with
  | none =>
    have hD := hnone rfl
    have hvr : v.id = r := by
      rcases hf.order [] v D rfl with h1 | ⟨u, h1, _⟩
      · exact h1
      · rw [hD] at h1
        cases h1
    have hpar : v.parent = (B r).parent := by rw [← hvr, ← (hf.ok v (by simp)).1]
    have hpos : position (pointOf B nf r p0) (some c) = some p0 := by
      rw [hc]
      simp [position, chainTo, pointOf]
    refine ⟨.rollback p0, [.inner (.block v)], ?_, ?_⟩
    · rw [hpos]
      rfl
    · have h1 : consume (pointOf B nf r p0) [(B r).parent] (.rollback p0) = some [(B r).parent] := by
        have h2 : pointOf B nf r p0 (B r).parent = some p0 := by simp [pointOf]
        simp only [consume]
        rw [if_pos ⟨_, by simp, h2⟩, List.dropWhile_cons_of_neg (by simpa using h2)]
      rw [hc, chainTo_root hf (by simp) hvr]
      have h2 : consume (pointOf B nf r p0) [(B r).parent] (.inner (.block v)) =
          some [v.id, (B r).parent] := by
        simp [consume, hpar]
      rw [hpar]
      show consumeAll _ [(B r).parent] _ = _
      simp only [consumeAll, h1, h2]
  | some u =>
    have hu := hmem u rfl
    simp only [Option.map_some] at hc ⊢
    simp only [newEvents]
    by_cases he : u.id = v.parent
    · rw [if_pos he]
      have hn : v.number = u.number + 1 := by
        rcases hf.order [] v D rfl with h1 | ⟨x, h1, h2, h3⟩
        · exfalso
          refine hf.rootParent u (by simp [hu]) ?_
          rw [he, ← h1, ← (hf.ok v (by simp)).1]
        · have := hf.same (u := x) (v := u) (by simp [h1]) (by simp [hu]) (by rw [h2, he])
          rw [h3, this]
      refine ⟨_, [], rfl, ?_⟩
      rw [hc]
      simp only [consumeAll, consume_next hf (u := u) (v := v) (by simp [hu]) (by simp) he hn]
    · rw [if_neg he]
      obtain ⟨i, j, h1, h2, h3, h4⟩ := hs u rfl
      obtain ⟨es, h5, h6, _, h7⟩ := branchEvents_spec hr hi hf hp (u := u) (v := v) (by simp [hu]) (by simp)
        h1 h2 h3 h4
      rw [← hc] at h7
      cases es with
      | nil => exact absurd rfl h6
      | cons e es => exact ⟨e, es, h5, h7⟩

/-- The invariant. -/
structure TInv (B : Key → Block) (d : Nat) (r : Key) (nf : Block → Option P) (p0 : P) (t : Told P) (S : Tree) : Prop where
  rel : ∃ m db, t.world.src.mv = m.withDb db ∧ Rel B m S ∧ m.storeFrom = 0
  depth : t.world.src.depth = d
  inv : Inv B d r t.world.got S
  conf : ∀ c, t.world.src.confirmed = some c → (S c).isSome ∧
    ∀ y ∈ t.world.got, y.number ≤ (B c).number + d + (if t.owed then 1 else 0)
  last : t.world.src.last = t.told.map Block.id
  mem : ∀ u, t.told = some u → u ∈ t.world.got
  first : t.told = none → t.world.got = []
  chain : ∃ c, t.world.chain = some c ∧
    consumeAll (pointOf B nf r p0) c t.world.src.events = some (chainTo B r (t.told.map Block.id))
  queue : ∀ e ∈ t.world.src.events, e.isBlock = true
  failed : t.world.failed = none
  news : t.owed = false → t.told = lastNew t.world.got

theorem TInv.start (B : Key → Block) (d : Nat) (r : Key) (nf : Block → Option P) (p0 : P) :
    TInv B d r nf p0 (Told.start d (B r).parent) (fun _ => none) where
  rel := ⟨MV.empty [] 0, [], rfl, Rel.empty B 0, rfl⟩
  depth := rfl
  inv := Inv.nil B d r
  conf := by simp [Told.start, FWorld.start]
  last := rfl
  mem := by simp [Told.start]
  first _ := rfl
  chain := ⟨_, rfl, rfl⟩
  queue := by simp [Told.start, FWorld.start]
  failed := rfl
  news _ := rfl

theorem tstep_world (pt : Key → Option P) (nf : Block → Option P) (t : Told P)
    (a : (Nat → Fault) × Orders × (List P → Except Unit (Option Ev))) :
    (t.step pt nf a).world = t.world.stepDb pt nf none a := by
  unfold Told.step
  split
  · rfl
  · split <;> rfl

theorem tstep_got (pt : Key → Option P) (nf : Block → Option P) (t : Told P)
    (a : (Nat → Fault) × Orders × (List P → Except Unit (Option Ev))) :
    (t.step pt nf a).world.got = t.hears pt nf a ++ t.world.got := by
  rw [tstep_world]
  unfold FWorld.stepDb Told.hears
  simp only
  unfold Told.refused
  split
  · rename_i hr
    rw [hr]
    by_cases h0 : a.1 0 = .fine <;> simp [h0]
  · rename_i hr
    rw [hr]
    simp
  · rename_i hr
    rw [hr]
    simp

theorem trun_got (pt : Key → Option P) (nf : Block → Option P) :
    ∀ (as : List ((Nat → Fault) × Orders × (List P → Except Unit (Option Ev)))) (t : Told P),
      ∃ l, (t.run pt nf as).world.got = l ++ t.world.got
  | [], t => ⟨[], rfl⟩
  | a :: as, t => by
    obtain ⟨l, hl⟩ := trun_got pt nf as (t.step pt nf a)
    have e : t.run pt nf (a :: as) = (t.step pt nf a).run pt nf as := rfl
    exact ⟨l ++ t.hears pt nf a, by rw [e, hl, tstep_got, List.append_assoc]⟩

theorem frequest_withDb (nf : Block → Option P) (s : FSrc P) (m : MV) (db : AMap (List UInt8) Block) (h : s.mv = m.withDb db)
    (o : Orders) (f : Option P) : s.request nf o f = FSrc.request nf { s with mv := m } o f := by
  have e : s = { s with mv := m.withDb db } := by rw [← h]
  rw [e]
  simp only [FSrc.request, tipChecks_withDb]
  rfl

theorem TInv.step {t : Told P} (h : TInv B d r nf p0 t S)
    {a : (Nat → Fault) × Orders × (List P → Except Unit (Option Ev))} (ho : a.2.1.Ok)
    (hf : Feed B r (t.hears (pointOf B nf r p0) nf a ++ t.world.got))
    (hp : FPoints nf p0 (t.hears (pointOf B nf r p0) nf a ++ t.world.got))
    (hs : ∀ v ∈ t.hears (pointOf B nf r p0) nf a, (∀ x ∈ t.world.got, x.number ≤ v.number + d + 1) ∧
      (v ∉ t.world.got → (t.owed = true → t.refused (pointOf B nf r p0) nf a = false) ∧
        ∀ u, t.told = some u → ∃ i j, (B r).number + i ≤ v.number ∧ (B r).number + j ≤ u.number ∧
          Sources.anc B i v.id = Sources.anc B j u.id ∧ ∀ x ∈ v :: t.world.got, x.number + i ≤ v.number + d + 1)) :
    ∃ S', TInv B d r nf p0 (t.step (pointOf B nf r p0) nf a) S' := by
  obtain ⟨ft, o, resp⟩ := a
  obtain ⟨w, told, owed⟩ := t
  have hf0 : Feed B r w.got := hf.append
  have hp0 : FPoints nf p0 w.got := hp.append
  have hnf : ∀ k, (S k).isSome → (nf (B k)).isSome := by
    intro k hk
    obtain ⟨v, hv, rfl⟩ := h.inv.sub k hk
    rw [← (hf0.ok v hv).1]
    exact (hp0.1 v hv).1
  obtain ⟨c, hc, hcc⟩ := h.chain
  obtain ⟨m, db, hm, hrel, hsf⟩ := h.rel
  simp only at ho hc hcc hm
  cases hev : w.src.events with
  | cons e es =>
    have hpull : w.src.pullF nf o ft (position (pointOf B nf r p0) w.chain) resp =
        ⟨.ok (some e), none, { w.src with events := es }⟩ := by simp only [FSrc.pullF, hev]
    have hstep : (⟨w, told, owed⟩ : Told P).step (pointOf B nf r p0) nf (ft, o, resp) =
        ⟨⟨{ w.src with events := es }, follow (pointOf B nf r p0) w.chain (.ok (some e)), w.got, w.failed⟩, told, owed⟩ := by
      simp only [Told.step, Told.hears, Told.refused, FWorld.stepDb, hpull, heard, Bool.false_eq_true, false_and, if_false,
        List.filter_nil, List.nil_append]
    rw [hstep]
    rw [hev, consumeAll] at hcc
    refine ⟨S, ⟨m, db, hm, hrel, hsf⟩, h.depth, h.inv, h.conf, h.last, h.mem, h.first, ?_,
      fun x hx => h.queue x (by simp only [hev]; exact List.mem_cons_of_mem _ hx), h.failed, h.news⟩
    simp only [follow, hc, Option.bind_some]
    cases hce : consume (pointOf B nf r p0) c e with
    | none => rw [hce] at hcc; cases hcc
    | some c' =>
      rw [hce] at hcc
      exact ⟨c', rfl, hcc⟩
  | nil =>
    obtain ⟨ps, hreq⟩ := FSrc.request_ok (s := { w.src with mv := m }) hrel hnf (fun c hc => (h.conf c hc).1) ho
      (position (pointOf B nf r p0) w.chain)
    rw [← frequest_withDb nf w.src m db hm] at hreq
    have hpull : w.src.pullF nf o ft (position (pointOf B nf r p0) w.chain) resp =
        ⟨(w.src.answerF nf o ft (position (pointOf B nf r p0) w.chain) (resp ps)).1, some ps,
          (w.src.answerF nf o ft (position (pointOf B nf r p0) w.chain) (resp ps)).2⟩ := by
      simp only [FSrc.pullF, hev, hreq]
    have idle : ∀ {y : Except FDbErr (Option (FEv P))}, blockOf (resp ps) = none →
        w.src.answerF nf o ft (position (pointOf B nf r p0) w.chain) (resp ps) = (y, w.src) →
        (y = .error (.src .inner) ∨ y = .ok none ∨ ∃ n, y = .ok (some (.inner (.tip n)))) →
        (⟨w, told, owed⟩ : Told P).step (pointOf B nf r p0) nf (ft, o, resp) = ⟨w, told, owed⟩ := by
      intro y h1 h2 h3
      simp only [Told.step, Told.hears, Told.refused, FWorld.stepDb, hpull, heard, h1, h2, Option.toList_none, ite_self,
        List.filter_nil, List.nil_append]
      rcases h3 with rfl | rfl | ⟨n, rfl⟩
      · rfl
      · rfl
      · simp only [follow, hc, Option.bind_some, consume]
        rw [← hc]
    generalize hx : resp ps = x at *
    cases x with
    | error e => rw [idle rfl rfl (.inl rfl)]; exact ⟨S, h⟩
    | ok y =>
      cases y with
      | none => rw [idle rfl rfl (.inr (.inl rfl))]; exact ⟨S, h⟩
      | some ev =>
        cases ev with
        | tip n => rw [idle rfl rfl (.inr (.inr ⟨n, rfl⟩))]; exact ⟨S, h⟩
        | block v =>
          have hget : w.src.mv.get v.id = m.get v.id := by rw [hm]; rfl
          by_cases hst : (S v.id).isSome
          · have hg : (w.src.mv.get v.id).isSome := by rw [hget, hrel.get, if_pos hst]; rfl
            have hans : w.src.answerF nf o ft (position (pointOf B nf r p0) w.chain) (.ok (some (.block v))) =
                (.ok none, w.src) := by simp only [FSrc.answerF, hg, if_true]
            have hhear : (⟨w, told, owed⟩ : Told P).hears (pointOf B nf r p0) nf (ft, o, resp) = [v] := by
              simp only [Told.hears, Told.refused, hpull, hx, hans, heard, blockOf, Option.toList_some, Bool.false_eq_true,
                false_and, if_false]
            rw [hhear] at hf hp hs
            simp only [List.singleton_append] at hf hp
            obtain ⟨h1, h2⟩ := h.inv.again hf hst
            have hstep : (⟨w, told, owed⟩ : Told P).step (pointOf B nf r p0) nf (ft, o, resp) =
                ⟨⟨w.src, w.chain, v :: w.got, w.failed⟩, told, owed⟩ := by
              unfold Told.step
              rw [hhear, List.filter_cons_of_neg (by simpa using h2)]
              simp only [FWorld.stepDb, hpull, heard, hx, hans, blockOf, Option.toList_some, follow, List.singleton_append]
              rfl
            rw [hstep]
            have hin : ∀ x ∈ v :: w.got, x ∈ w.got := by
              intro x hx
              rcases List.mem_cons.1 hx with rfl | hx
              · exact h2
              · exact hx
            refine ⟨S, ⟨m, db, hm, hrel, hsf⟩, h.depth, h1, fun c hc => ⟨(h.conf c hc).1, fun y hy => (h.conf c hc).2 y (hin y hy)⟩,
              h.last, fun u hu => List.mem_cons_of_mem _ (h.mem u hu), fun hn => ?_, ⟨c, hc, hcc⟩, h.queue, h.failed, fun hw => ?_⟩
            · exfalso
              have := h.first hn
              simp only at this
              rw [this] at h2
              cases h2
            · have := h.news hw
              simp only [lastNew, if_pos h2]
              exact this
          · have hg : ¬ (w.src.mv.get v.id).isSome := by rw [hget, hrel.get, if_neg hst]; simp
            have hall : AMap.get m.all v.id = none := by
              cases hh : AMap.get m.all v.id with
              | none => rfl
              | some x =>
                exfalso
                apply hg
                rw [hget]
                unfold MV.get
                rw [hh]
                rfl
            have hd : w.src.depth = d := h.depth
            by_cases hft : ft 0 = .fine
            swap
            · -- the insertion fails
              obtain ⟨db2, hins⟩ : ∃ db2, w.src.mv.insertF (ft 0) v = (.error .db, m.withDb db2) := by
                have h0 : w.src.mv.storeFrom ≤ v.number := by
                  rw [hm, show (m.withDb db).storeFrom = m.storeFrom from rfl, hsf]
                  exact Nat.zero_le _
                unfold MV.insertF
                rw [if_pos ⟨h0, hft⟩]
                split
                · refine ⟨AMap.insert w.src.mv.db (mkKey v.number v.id) v, ?_⟩
                  unfold MV.dbInsert
                  rw [if_pos h0, hm]
                  rfl
                · exact ⟨db, by rw [hm]⟩
              have hans : w.src.answerF nf o ft (position (pointOf B nf r p0) w.chain) (.ok (some (.block v))) =
                  (.error .db, { w.src with mv := m.withDb db2 }) := by
                simp only [FSrc.answerF, hg, Bool.false_eq_true, if_false, FSrc.storeF, insertAndGcF, hins]
              have hstep : (⟨w, told, owed⟩ : Told P).step (pointOf B nf r p0) nf (ft, o, resp) =
                  ⟨⟨{ w.src with mv := m.withDb db2 }, w.chain, w.got, w.failed⟩, told, owed⟩ := by
                simp only [Told.step, Told.hears, Told.refused, FWorld.stepDb, hpull, hx, hans, hft, ne_eq, not_false_eq_true,
                  and_self, if_true, if_false, List.filter_nil, List.nil_append]
              rw [hstep]
              exact ⟨S, ⟨m, db2, rfl, hrel, hsf⟩, h.depth, h.inv, h.conf, h.last, h.mem, h.first, ⟨c, hc, hcc⟩, h.queue, h.failed,
                h.news⟩
            have hhear : (⟨w, told, owed⟩ : Told P).hears (pointOf B nf r p0) nf (ft, o, resp) = [v] := by
              simp only [Told.hears, hpull, hx, heard, blockOf, Option.toList_some, hft, ne_eq, not_true_eq_false, and_false, if_false]
            rw [hhear] at hf hp hs
            simp only [List.singleton_append] at hf hp
            obtain ⟨hlate, hnew⟩ := hs v (by simp)
            have hv : v ∉ w.got := fun hmem => hst (h.inv.keep v hmem hlate)
            obtain ⟨hwait, hfork⟩ := hnew hv
            obtain ⟨m1, sel1, rs, g1, g2, g3, g4, _, _⟩ := insertAndSelect_spec hrel (hf.ok v (by simp)).1
              (hf.ok v (by simp)).2 ho d
            have hi1 := h.inv.insert hf (by simpa using hst) m.storeFrom
            have hcases := insertAndGcF_mem db hft hall g1
            rw [← hm] at hcases
            have hlast : w.src.last = told.map Block.id := h.last
            have hce : c = chainTo B r (told.map Block.id) := by
              rw [hev] at hcc
              exact Option.some.inj hcc
            have hparent : v.id = r ∨ ∃ y ∈ w.got, v.number = y.number + 1 := by
              rcases hf.order [] v w.got rfl with q | ⟨y, q1, _, q2⟩
              · exact .inl q
              · exact .inr ⟨y, q1, q2⟩
            rcases hcases with ⟨m', db', sel', k1, k2⟩ | ⟨e, k1⟩ | ⟨m', db', n, k0, k1, k2⟩
            · obtain ⟨sel, R, m2, i1, i2, i3, i4⟩ := insertAndGc_spec hrel (hf.ok v (by simp)).1 (hf.ok v (by simp)).2 ho d
              rw [k2] at i1
              obtain ⟨rfl, rfl⟩ := Prod.mk.inj (Except.ok.inj i1)
              have hi2 := hi1.dropLow hf (hi1.selected_low hf g2 i4)
              obtain ⟨e, es, k3, k4⟩ := newEvents_told hce h.mem h.first i2 hi2 hf hp hfork
              have hans : w.src.answerF nf o ft (position (pointOf B nf r p0) w.chain) (.ok (some (.block v))) =
                  (.ok (some e), ⟨m'.withDb db', d, newConfirmed w.src.confirmed sel', some v.id, es⟩) := by
                simp only [FSrc.answerF, hg, Bool.false_eq_true, if_false, FSrc.storeF, hd, k1, newEvents_withDb, hlast, hc, k3]
              have hstep : (⟨w, told, owed⟩ : Told P).step (pointOf B nf r p0) nf (ft, o, resp) =
                  ⟨⟨⟨m'.withDb db', d, newConfirmed w.src.confirmed sel', some v.id, es⟩,
                    follow (pointOf B nf r p0) w.chain (.ok (some e)), v :: w.got, w.failed⟩, some v, false⟩ := by
                unfold Told.step
                rw [hhear, List.filter_cons_of_pos (by simpa using hv)]
                simp only [Told.refused, FWorld.stepDb, hpull, heard, hx, hans, blockOf, Option.toList_some,
                  List.singleton_append, Bool.false_eq_true, if_false]
              rw [hstep]
              obtain ⟨top, t1, t2, t3⟩ := i4.top
              obtain ⟨t, ht, hmax, hsel⟩ := hi1.selected_anc hf g2 t1 t2 t3
              refine ⟨_, ⟨m', db', rfl, i2, i3.trans hsf⟩, rfl, hi2, fun c hc => ⟨confirmed_kept i4 (fun c hc => (h.conf c hc).1) c hc, ?_⟩,
                rfl, by simp, by simp, ?_, newEvents_queue k3, h.failed, fun _ => by simp only [lastNew, if_neg hv]⟩
              · intro y hy
                have hty := hmax y hy
                simp only [Bool.false_eq_true, if_false, Nat.add_zero]
                split at hsel
                · rename_i hle
                  rw [hsel] at hc
                  simp only [newConfirmed] at hc
                  obtain ⟨u, hu, hu1, hu2⟩ := hf.anc d ht hle
                  have : B c = u := by rw [← Option.some.inj hc, ← hu1]; exact (hf.ok u hu).1.symm
                  rw [this]
                  omega
                · rename_i hle
                  rw [hsel] at hc
                  simp only [newConfirmed] at hc
                  obtain ⟨u, hu, hu1⟩ := h.inv.sub c (h.conf c hc).1
                  have hB : B c = u := by rw [← hu1]; exact (hf0.ok u hu).1.symm
                  have := hf0.ge hu
                  rw [hB]
                  omega
              · simp only [follow, hc, Option.bind_some]
                rw [consumeAll] at k4
                cases hcx : consume (pointOf B nf r p0) c e with
                | none => rw [hcx] at k4; cases k4
                | some c2 =>
                  rw [hcx] at k4
                  exact ⟨c2, rfl, k4⟩
            · obtain ⟨sel, R, m2, i1, _⟩ := insertAndGc_spec hrel (hf.ok v (by simp)).1 (hf.ok v (by simp)).2 ho d
              rw [k1] at i1
              cases i1
            · obtain ⟨sel, R, Rn, m2, i1, i2, i3, i4, i5⟩ := insertAndDie_spec hrel (hf.ok v (by simp)).1
                (hf.ok v (by simp)).2 ho d n
              rw [k2] at i1
              obtain rfl := Except.ok.inj i1
              have hi2 := hi1.dropLow hf (fun k hk => hi1.selected_low hf g2 i5 k (i2 k hk))
              have hans : w.src.answerF nf o ft (position (pointOf B nf r p0) w.chain) (.ok (some (.block v))) =
                  (.error .db, { w.src with mv := m'.withDb db' }) := by
                simp only [FSrc.answerF, hg, Bool.false_eq_true, if_false, FSrc.storeF, hd, k1]
              have hrefused : (⟨w, told, owed⟩ : Told P).refused (pointOf B nf r p0) nf (ft, o, resp) = true := by
                simp only [Told.refused, hpull, hx, hans]
              have howed : owed = false := by
                cases owed with
                | false => rfl
                | true =>
                  have := hwait rfl
                  rw [hrefused] at this
                  cases this
              have hstep : (⟨w, told, owed⟩ : Told P).step (pointOf B nf r p0) nf (ft, o, resp) =
                  ⟨⟨{ w.src with mv := m'.withDb db' }, w.chain, v :: w.got, w.failed⟩, told, true⟩ := by
                unfold Told.step
                rw [hrefused, hhear, List.filter_cons_of_pos (by simpa using hv)]
                simp only [FWorld.stepDb, hpull, heard, hx, hans, blockOf, Option.toList_some, List.singleton_append, hft, if_true]
              rw [hstep]
              obtain ⟨top, t1, t2, t3⟩ := i5.top
              obtain ⟨t, ht, hmax, hsel⟩ := hi1.selected_anc hf g2 t1 t2 t3
              refine ⟨_, ⟨m', db', rfl, i3, i4.trans hsf⟩, h.depth, hi2, fun c hc => ?_, h.last, fun u hu => List.mem_cons_of_mem _ (h.mem u hu),
                fun hn => ?_, ⟨c, hc, hcc⟩, h.queue, h.failed, fun hw => by cases hw⟩
              · obtain ⟨hcs, hcn⟩ := h.conf c hc
                rw [howed] at hcn
                simp only [Bool.false_eq_true, if_false, Nat.add_zero] at hcn
                obtain ⟨u, hu, hu1⟩ := h.inv.sub c hcs
                have hB : B c = u := by rw [← hu1]; exact (hf0.ok u hu).1.symm
                have hge := hf0.ge hu
                have hvn : v.number ≤ (B c).number + d + 1 := by
                  rcases hparent with q | ⟨y, q1, q2⟩
                  · have := hf.number_root (v := v) (by simp) q
                    rw [hB]
                    omega
                  · have := hcn y q1
                    omega
                have hall' : ∀ y ∈ v :: w.got, y.number ≤ (B c).number + d + 1 := by
                  intro y hy
                  rcases List.mem_cons.1 hy with rfl | hy
                  · exact hvn
                  · have := hcn y hy
                    omega
                refine ⟨?_, fun y hy => by simpa using hall' y hy⟩
                have hnot : c ∉ Rn := by
                  intro hR
                  obtain ⟨x, hx', hlt⟩ := hi1.selected_low hf g2 i5 c (i2 c hR)
                  have := hall' x hx'
                  omega
                rw [specDrop_apply, if_neg hnot]
                have hs1 : (specInsert m.storeFrom S v c).isSome := by
                  rw [specInsert_isSome, hcs]
                  rfl
                split
                · rw [Option.isSome_map]
                  exact hs1
                · exact hs1
              · exfalso
                have hgot : w.got = [] := h.first hn
                obtain ⟨k, hk⟩ := List.exists_mem_of_ne_nil _ k0
                obtain ⟨hks, c1, hc1, hlt⟩ := (g4.discard k.key).1 (List.mem_map_of_mem hk)
                have hone : ∀ q, (specInsert m.storeFrom S v q).isSome → q = v.id := by
                  intro q hq
                  obtain ⟨x, hx', rfl⟩ := hi1.sub q hq
                  rw [hgot] at hx'
                  rw [List.mem_singleton.1 hx']
                rw [hone _ hks, hone _ (g4.stored c1 hc1)] at hlt
                omega

theorem TInv.run : ∀ (as : List ((Nat → Fault) × Orders × (List P → Except Unit (Option Ev)))) {t : Told P} {S : Tree},
    TInv B d r nf p0 t S → Spaced B d r (pointOf B nf r p0) nf t as →
    Feed B r (t.run (pointOf B nf r p0) nf as).world.got → FPoints nf p0 (t.run (pointOf B nf r p0) nf as).world.got →
    ∃ S', TInv B d r nf p0 (t.run (pointOf B nf r p0) nf as) S'
  | [], _, S, h, _, _, _ => ⟨S, h⟩
  | a :: as, t, S, h, hs, hf, hp => by
    have e : t.run (pointOf B nf r p0) nf (a :: as) = (t.step (pointOf B nf r p0) nf a).run (pointOf B nf r p0) nf as := rfl
    rw [e] at hf hp ⊢
    obtain ⟨l, hl⟩ := trun_got (pointOf B nf r p0) nf as (t.step (pointOf B nf r p0) nf a)
    have hf1 := hf
    have hp1 := hp
    rw [hl] at hf1 hp1
    have hf2 := hf1.append
    have hp2 := hp1.append
    rw [tstep_got] at hf2 hp2
    obtain ⟨S', h'⟩ := h.step hs.1 hf2 hp2 hs.2.1
    exact TInv.run as h' hs.2.2 hf hp

end Verif.Sources
