import Mathlib.Data.List.Induction
import Verif.Multiverse.Refused
import Verif.Sources.MultiWorld

/-!
# The multiverse source over a database that fails

`/repo/blockchain-source/src/multiverse/mod.rs` with the faults of `Verif/Multiverse/Refused.lean`: a pull is given what
happens to each write of the database, `ft 0` for the insertion and `ft (i + 1)` for the removal number `i`.
-/

namespace Verif.Sources

open Verif.Multiverse

variable {P : Type} [DecidableEq P]

/-- The loop over the blocks to discard, mod.rs:192-199, with `?` in line 198. -/
def gcF (keep : List Ref) (ft : Nat → Fault) : Nat → MV → List Ref → Except RErr Unit × MV
  | _, m, [] => (.ok (), m)
  | i, m, r :: rs =>
    match m.removeF (ft i) (fun a => (keep ++ r :: rs).any (fun x => x.arc == a)) r.key with
    | (.error e, m') => (.error e, m')
    | (.ok _, m') => gcF keep ft (i + 1) m' rs

/-- `multiverse_insert_and_gc`, mod.rs:167-202. -/
def insertAndGcF (m : MV) (o : Orders) (depth : Nat) (v : Block) (ft : Nat → Fault) : Except RErr (Option Key) × MV :=
  match m.insertF (ft 0) v with
  | (.error e, m') => (.error e, m')
  | (.ok _, m1) =>
    match m1.selectBest (fun _ => false) o.best depth 1 with
    | .error e => (.error (.mv e), m1)
    | .ok x =>
      match gcF x.1.toList ft 1 m1 (discardList o x) with
      | (.error e, m') => (.error e, m')
      | (.ok _, m2) => (.ok (x.1.map Ref.key), m2)

/-- Why a pull fails: the database, or a reason of `SrcErr`. -/
inductive DbErr where
  | db
  | src (e : SrcErr)
deriving DecidableEq

/-- A new block, mod.rs:145-163: an error leaves `confirmed` as it was. -/
def MSrc.storeF (s : MSrc) (o : Orders) (ft : Nat → Fault) (v : Block) : Except DbErr (Option Ev) × MSrc :=
  match insertAndGcF s.mv o s.depth v ft with
  | (.error .db, m') => (.error .db, { s with mv := m' })
  | (.error (.mv e), _) => (.error (.src (.store e)), s)
  | (.ok sel, m') => ((s.settle m' sel).1.mapError .src, (s.settle m' sel).2)

/-- The part of `pull` after the inner source has answered, mod.rs:129-163. -/
def MSrc.answerF (s : MSrc) (o : Orders) (ft : Nat → Fault) : Except Unit (Option Ev) → Except DbErr (Option Ev) × MSrc
  | .error _ => (.error (.src .inner), s)
  | .ok none => (.ok none, s)
  | .ok (some (.tip n)) => (.ok (some (.tip n)), s)
  | .ok (some (.block v)) => if (s.mv.get v.id).isSome then (.ok none, s) else s.storeF o ft v

/-- The result of a pull: what is returned, what was asked of the inner source, the source afterwards. -/
structure PulledF (P : Type) where
  res : Except DbErr (Option Ev)
  asked : Option (List P)
  src : MSrc

/-- `pull`, mod.rs:67-164. -/
def MSrc.pullF (nf : Block → Option P) (s : MSrc) (o : Orders) (ft : Nat → Fault) (from' : Option P)
    (resp : List P → Except Unit (Option Ev)) : PulledF P :=
  match s.request nf o from' with
  | .error e => ⟨.error (.src e), none, s⟩
  | .ok (.inl b) => ⟨.ok (some (.block b)), none, s⟩
  | .ok (.inr ps) => ⟨(s.answerF o ft (resp ps)).1, some ps, (s.answerF o ft (resp ps)).2⟩

/-- The block that a pull has released. -/
def releasedF : Except DbErr (Option Ev) → List Block
  | .ok (some (.block v)) => [v]
  | _ => []

/-! ### A consumer that goes on, and one that makes the source anew -/

/-- A consumer that pulls on after errors: the source, its position, the blocks it received. -/
structure Stubborn (P : Type) where
  src : MSrc
  pos : Option P
  out : List Block

/-- One pull. -/
def Stubborn.step (nf : Block → Option P) (w : Stubborn P) (a : (Nat → Fault) × (List P → Except Unit (Option Ev))) :
    Stubborn P :=
  let r := w.src.pullF nf ⟨id, id, id⟩ a.1 w.pos a.2
  ⟨r.src, advance nf w.pos (releasedF r.res), w.out ++ releasedF r.res⟩

/-- From an empty multiverse that stores all blocks. -/
def Stubborn.run (nf : Block → Option P) (depth : Nat) (pos : Option P)
    (as : List ((Nat → Fault) × (List P → Except Unit (Option Ev)))) : Stubborn P :=
  as.foldl (Stubborn.step nf) ⟨⟨MV.empty [] 0, depth, none⟩, pos, []⟩

/-- What a careful consumer does: an action as before, or a pull over a database that may fail; if it does, the source is made
anew from the database. -/
inductive ActF (P : Type) where
  | act (a : Act P)
  | pull (o : Orders) (ft : Nat → Fault) (resp : List P → Except Unit (Option Ev)) (o' : Orders)

/-- The same conditions as for `Act`. -/
def ActF.Ok (crashes : Prop) : ActF P → Prop
  | .act a => a.Ok crashes
  | .pull o _ _ o' => o.Ok ∧ o'.Ok

/-- One action. `got` are the blocks delivered that were not lost by a failing insertion. -/
def World.stepF (nf : Block → Option P) (w : World P) : ActF P → World P
  | .act a => w.step nf a
  | .pull o ft resp o' =>
    let r := w.src.pullF nf o ft w.pos resp
    match r.res with
    | .error .db =>
      { w with got := (if ft 0 = Fault.lost then [] else heard resp r.asked) ++ w.got }.renew r.src.mv o'
    | .error (.src e) =>
      { w with src := r.src, got := heard resp r.asked ++ w.got, failed := (failure (.error e)).or w.failed }
    | .ok x =>
      ⟨r.src, advance nf w.pos (released (.ok x)), w.out ++ released (.ok x), heard resp r.asked ++ w.got, w.failed⟩

/-- A list of actions. -/
def World.runF (nf : Block → Option P) (w : World P) (as : List (ActF P)) : World P := as.foldl (World.stepF nf) w

/-! ## Lemmas -/

theorem remove_storeFrom {m : MV} {held : Nat → Bool} {k : Key} {x : Block × MV} (h : m.remove held k = .ok x) :
    x.2.storeFrom = m.storeFrom := by
  have hu : ∀ {m m' : MV} {strong : List Ref} {p : Option Ref}, m.unlink held strong k p = .ok m' → m'.storeFrom = m.storeFrom := by
    intro m m' strong p hh
    unfold MV.unlink at hh
    cases p with
    | none => cases hh; rfl
    | some r =>
      simp only at hh
      split at hh
      · split at hh
        · cases hh; rfl
        · split at hh
          · split at hh
            · split at hh
              · cases hh
              · cases hh; rfl
            · cases hh; rfl
          · cases hh
      · cases hh; rfl
  unfold MV.remove at h
  split at h
  · cases h
  · simp only at h
    split at h
    · cases h
    · split at h
      · cases h
      · rename_i hm2
        cases h
        have := hu hm2
        exact this

theorem held_perm (keep l1 l2 : List Ref) (r : Ref) :
    (fun a => (keep ++ r :: (l1 ++ l2)).any (fun x => x.arc == a)) =
      fun a => ((keep ++ l2) ++ r :: l1).any (fun x => x.arc == a) := by
  funext a
  rw [Bool.eq_iff_iff]
  simp only [List.any_eq_true, List.mem_append, List.mem_cons]
  constructor
  · rintro ⟨x, h1 | h1 | h1 | h1, h2⟩
    · exact ⟨x, .inl (.inl h1), h2⟩
    · exact ⟨x, .inr (.inl h1), h2⟩
    · exact ⟨x, .inr (.inr h1), h2⟩
    · exact ⟨x, .inl (.inr h1), h2⟩
  · rintro ⟨x, (h1 | h1) | h1 | h1, h2⟩
    · exact ⟨x, .inl h1, h2⟩
    · exact ⟨x, .inr (.inr (.inr h1)), h2⟩
    · exact ⟨x, .inr (.inl h1), h2⟩
    · exact ⟨x, .inr (.inr (.inl h1)), h2⟩

/-- The loop is the one without faults, or it ends where the process could have died. -/
theorem gcF_cases (keep : List Ref) (ft : Nat → Fault) : ∀ (rs : List Ref) (i : Nat) (m : MV),
    (∃ m', gcF keep ft i m rs = (.ok (), m') ∧ gc keep m rs = .ok m') ∨
    (∃ e m', gcF keep ft i m rs = (.error (.mv e), m') ∧ gc keep m rs = .error e) ∨
    ∃ m' n m2, gcF keep ft i m rs = (.error .db, m') ∧ gc (keep ++ rs.drop n) m (rs.take n) = .ok m2 ∧
      m'.db = m2.db ∧ m'.storeFrom = m2.storeFrom
  | [], i, m => .inl ⟨m, rfl, rfl⟩
  | r :: rs, i, m => by
    cases h : m.remove (fun a => (keep ++ r :: rs).any (fun x => x.arc == a)) r.key with
    | error e =>
      refine .inr (.inl ⟨e, m, ?_, ?_⟩)
      · simp only [gcF, MV.removeF, h]
      · simp only [gc, h]
    | ok x =>
      cases hf : ft i with
      | fine =>
        have e1 : gcF keep ft i m (r :: rs) = gcF keep ft (i + 1) x.2 rs := by simp only [gcF, MV.removeF, h, hf]
        have e2 : gc keep m (r :: rs) = gc keep x.2 rs := by simp only [gc, h]
        rw [e1, e2]
        rcases gcF_cases keep ft rs (i + 1) x.2 with h1 | h1 | ⟨m', n, m2, h1, h2, h3⟩
        · exact .inl h1
        · exact .inr (.inl h1)
        · refine .inr (.inr ⟨m', n + 1, m2, h1, ?_, h3⟩)
          rw [List.drop_succ_cons, List.take_succ_cons, gc, ← held_perm, List.take_append_drop, h]
          exact h2
      | lost =>
        refine .inr (.inr ⟨x.2.withDb m.db, 0, m, ?_, rfl, rfl, remove_storeFrom h⟩)
        simp only [gcF, MV.removeF, h, hf]
      | kept =>
        refine .inr (.inr ⟨x.2, 1, x.2, ?_, ?_, rfl, rfl⟩)
        · simp only [gcF, MV.removeF, h, hf]
        · rw [List.drop_succ_cons, List.take_succ_cons, List.drop_zero, List.take_zero, gc]
          have := held_perm keep [] rs r
          rw [List.nil_append] at this
          rw [← this, h]
          rfl

theorem insert_db {m m1 : MV} {v : Block} (h : m.insert v = .ok m1) : m1.db = (m.dbInsert v).2.db ∧ m1.storeFrom = m.storeFrom := by
  have hs : (m.dbInsert v).2.storeFrom = m.storeFrom := by
    unfold MV.dbInsert
    split <;> rfl
  unfold MV.insert at h
  split at h
  · cases h; exact ⟨rfl, hs⟩
  · unfold MV.insertMem at h
    split at h
    · cases h; exact ⟨rfl, hs⟩
    · split at h
      · cases h
      · cases h; exact ⟨rfl, hs⟩

/-- A pull with a new block over a failing database is one over a sound database, or ends where the process could have died:
before the insertion, or after it and a number of removals. -/
theorem storeF_cases (s : MSrc) (h0 : s.mv.storeFrom = 0) (o : Orders) (ft : Nat → Fault) (v : Block)
    (hsel : ∃ x, insertAndSelect s.mv o s.depth v = .ok x) :
    s.storeF o ft v = ((s.store o v).1.mapError .src, (s.store o v).2) ∨
    (ft 0 = .lost ∧ s.storeF o ft v = (.error .db, s)) ∨
    ∃ n m m2, ft 0 ≠ .lost ∧ s.storeF o ft v = (.error .db, { s with mv := m }) ∧ insertAndDie s.mv o s.depth v n = .ok m2 ∧
      m.db = m2.db ∧ m.storeFrom = m2.storeFrom := by
  obtain ⟨x, hx⟩ := hsel
  have hx' := hx
  unfold insertAndSelect at hx
  cases hi : s.mv.insert v with
  | error e => rw [hi] at hx; cases hx
  | ok m1 =>
    rw [hi] at hx
    simp only at hx
    cases hb : m1.selectBest (fun _ => false) o.best s.depth 1 with
    | error e => rw [hb] at hx; cases hx
    | ok y =>
      rw [hb] at hx
      cases hx
      cases hf : ft 0 with
      | lost =>
        refine .inr (.inl ⟨rfl, ?_⟩)
        simp only [MSrc.storeF, insertAndGcF, MV.insertF, h0, hf, Nat.zero_le, true_and, ne_eq, reduceCtorEq, not_false_eq_true,
          if_true, if_false]
      | kept =>
        refine .inr (.inr ⟨0, (s.mv.dbInsert v).2, m1, by simp, ?_, ?_, (insert_db hi).1.symm, ?_⟩)
        · simp only [MSrc.storeF, insertAndGcF, MV.insertF, h0, hf, Nat.zero_le, true_and, ne_eq, reduceCtorEq, not_false_eq_true,
            if_true]
        · simp only [insertAndDie, hx', List.take_zero, gc]
        · rw [(insert_db hi).2]
          unfold MV.dbInsert
          split <;> rfl
      | fine =>
        have hins : s.mv.insertF (ft 0) v = (.ok (), m1) := by
          simp only [MV.insertF, hf, ne_eq, not_true_eq_false, and_false, if_false, hi]
        rcases gcF_cases y.1.toList ft (discardList o y) 1 m1 with ⟨m', h1, h2⟩ | ⟨e, m', h1, h2⟩ | ⟨m', n, m2, h1, h2, h3, h4⟩
        · refine .inl ?_
          simp only [MSrc.storeF, insertAndGcF, hins, hb, h1, MSrc.store, insertAndGc, hx', h2]
        · refine .inl ?_
          simp only [MSrc.storeF, insertAndGcF, hins, hb, h1, MSrc.store, insertAndGc, hx', h2]
          rfl
        · refine .inr (.inr ⟨n, m', m2, by simp, ?_, ?_, h3, h4⟩)
          · simp only [MSrc.storeF, insertAndGcF, hins, hb, h1]
          · simp only [insertAndDie, hx', h2]

theorem renew_congr (w : World P) {m m2 : MV} (h1 : m.db = m2.db) (h2 : m.storeFrom = m2.storeFrom) (o : Orders) :
    w.renew m o = w.renew m2 o := by
  unfold World.renew reopenSrc
  rw [h1, h2]

/-- A careful pull is a pull or a crash. -/
theorem stepF_pull (nf : Block → Option P) (w : World P) (h0 : w.src.mv.storeFrom = 0) (o : Orders) (ft : Nat → Fault)
    (resp : List P → Except Unit (Option Ev)) (o' : Orders)
    (hsel : ∀ ps v, w.src.request nf o w.pos = .ok (.inr ps) → resp ps = .ok (some (.block v)) → ¬ (w.src.mv.get v.id).isSome →
      ft 0 ≠ .lost → ∃ x, insertAndSelect w.src.mv o w.src.depth v = .ok x) :
    w.stepF nf (.pull o ft resp o') = w.step nf (.pull o resp) ∨
    w.stepF nf (.pull o ft resp o') = w.step nf (.crash o (fun _ => .ok none) 0 o') ∨
    ∃ n, w.stepF nf (.pull o ft resp o') = w.step nf (.crash o resp n o') := by
  cases hreq : w.src.request nf o w.pos with
  | error e =>
    refine .inl ?_
    simp only [World.stepF, World.step, MSrc.pullF, MSrc.pull, hreq]
    simp only [released, advance, List.append_nil]
  | ok y =>
    cases y with
    | inl b =>
      refine .inl ?_
      simp only [World.stepF, World.step, MSrc.pullF, MSrc.pull, hreq]
      rfl
    | inr ps =>
      cases hr : resp ps with
      | error e =>
        refine .inl ?_
        simp only [World.stepF, World.step, MSrc.pullF, MSrc.pull, hreq, hr, MSrc.answerF, MSrc.answer, released, advance,
          List.append_nil]
      | ok ev =>
        cases ev with
        | none =>
          refine .inl ?_
          simp only [World.stepF, World.step, MSrc.pullF, MSrc.pull, hreq, hr, MSrc.answerF, MSrc.answer]
          rfl
        | some ev =>
          cases ev with
          | tip n =>
            refine .inl ?_
            simp only [World.stepF, World.step, MSrc.pullF, MSrc.pull, hreq, hr, MSrc.answerF, MSrc.answer]
            rfl
          | block v =>
            by_cases hg : (w.src.mv.get v.id).isSome
            · refine .inl ?_
              simp only [World.stepF, World.step, MSrc.pullF, MSrc.pull, hreq, hr, MSrc.answerF, MSrc.answer, hg, if_true]
              rfl
            · by_cases hl : ft 0 = .lost
              · refine .inr (.inl ?_)
                have hst : w.src.storeF o ft v = (.error .db, w.src) := by
                  simp only [MSrc.storeF, insertAndGcF, MV.insertF, h0, hl, Nat.zero_le, true_and, ne_eq, reduceCtorEq,
                    not_false_eq_true, if_true, if_false]
                simp only [World.stepF, World.step, MSrc.pullF, MSrc.pull, MSrc.die, hreq, hr, MSrc.answerF, hg, Bool.false_eq_true,
                  if_false, hst, hl, if_true, blockOf, heard, Option.toList_none]
              · rcases storeF_cases w.src h0 o ft v (hsel ps v hreq hr hg hl) with h1 | ⟨h1, _⟩ | ⟨n, m, m2, _, h1, h2, h3, h4⟩
                · refine .inl ?_
                  simp only [World.stepF, World.step, MSrc.pullF, MSrc.pull, hreq, hr, MSrc.answerF, MSrc.answer, hg,
                    Bool.false_eq_true, if_false, h1]
                  cases hs : (w.src.store o v).1 with
                  | error e => simp only [Except.mapError, released, advance, List.append_nil]
                  | ok x => simp only [Except.mapError]; rfl
                · exact absurd h1 hl
                · refine .inr (.inr ⟨n, ?_⟩)
                  simp only [World.stepF, World.step, MSrc.pullF, MSrc.pull, MSrc.die, hreq, hr, MSrc.answerF, hg,
                    Bool.false_eq_true, if_false, h1, hl, h2, blockOf]
                  exact renew_congr _ h3 h4 o'

theorem stepF_got (nf : Block → Option P) (w : World P) (a : ActF P) : ∃ l, (w.stepF nf a).got = l ++ w.got := by
  have hren : ∀ (w : World P) (m : MV) (o : Orders), (w.renew m o).got = w.got := by
    intro w m o
    unfold World.renew
    split <;> rfl
  cases a with
  | act a => exact step_got nf w a
  | pull o ft resp o' =>
    simp only [World.stepF]
    split
    · exact ⟨_, hren _ _ _⟩
    · exact ⟨_, rfl⟩
    · exact ⟨_, rfl⟩

/-- A careful consumer is one whose process may die. -/
theorem runF_eq {B : Key → Block} {d : Nat} {r : Key} {nf : Block → Option P} (as : List (ActF P)) :
    (∀ a ∈ as, a.Ok True) → Feed B r ((World.start d none).runF nf as).got →
    CommonPrefix B d r ((World.start d none).runF nf as).got → Points nf ((World.start d none).runF nf as).got →
    ∃ bs, (∀ b ∈ bs, b.Ok True) ∧ (World.start d none).runF nf as = (World.start d none).run nf bs := by
  induction as using List.reverseRecOn with
  | nil => exact fun _ _ _ _ => ⟨[], by simp, rfl⟩
  | append_singleton as a ih =>
    intro ha hf hcp hp
    have e : (World.start d none).runF nf (as ++ [a]) = ((World.start d none).runF nf as).stepF nf a := by
      simp [World.runF]
    rw [e] at hf hcp hp ⊢
    obtain ⟨l, hl⟩ := stepF_got nf ((World.start d none).runF nf as) a
    have hf' := hf
    have hcp' := hcp
    have hp' := hp
    rw [hl] at hf' hcp' hp'
    obtain ⟨bs, hbs, hrun⟩ := ih (fun x hx => ha x (List.mem_append.2 (.inl hx))) hf'.append hcp'.append hp'.append
    have key : ∃ b : Act P, b.Ok True ∧ ((World.start d none).runF nf as).stepF nf a = ((World.start d none).runF nf as).step nf b := by
      have haa := ha a (by simp)
      cases a with
      | act b => exact ⟨b, haa, rfl⟩
      | pull o ft resp o' =>
        obtain ⟨ho, ho'⟩ : o.Ok ∧ o'.Ok := haa
        have hw : ∃ S, WInv B d r nf none True ((World.start d none).runF nf as) S := by
          rw [hrun] at hf' hcp' hp' ⊢
          exact WInv.run (Q := True) (by simp) (WInv.start B d r nf none True) hbs hf'.append hcp'.append hp'.append
        obtain ⟨S, hw⟩ := hw
        generalize hgen : (World.start d none).runF nf as = w at *
        have hren : ∀ (w : World P) (m : MV) (o : Orders), (w.renew m o).got = w.got := by
          intro w m o
          unfold World.renew
          split <;> rfl
        have hsel : ∀ ps v, w.src.request nf o w.pos = .ok (.inr ps) → resp ps = .ok (some (.block v)) →
            ft 0 ≠ .lost → ∃ x, insertAndSelect w.src.mv o w.src.depth v = .ok x := by
          intro ps v hreq hr hl
          have hv : v ∈ (w.stepF nf (.pull o ft resp o')).got := by
            simp only [World.stepF, MSrc.pullF, hreq, hr]
            split
            · rw [hren]; simp [hl, heard, hr, blockOf]
            · simp [heard, hr, blockOf]
            · simp [heard, hr, blockOf]
          obtain ⟨h1, h2⟩ := hf.ok v hv
          obtain ⟨m1, sel, rs, h3, _⟩ := insertAndSelect_spec hw.rel h1 h2 ho w.src.depth
          exact ⟨_, h3⟩
        rcases stepF_pull nf w hw.sf o ft resp o' (by intros; apply hsel <;> assumption) with h1 | h1 | ⟨n, h1⟩
        · exact ⟨.pull o resp, ho, h1⟩
        · exact ⟨.crash o (fun _ => .ok none) 0 o', ⟨trivial, ho, ho'⟩, h1⟩
        · exact ⟨.crash o resp n o', ⟨trivial, ho, ho'⟩, h1⟩
    obtain ⟨b, hb, hstep⟩ := key
    refine ⟨bs ++ [b], ?_, ?_⟩
    · intro x hx
      rcases List.mem_append.1 hx with hx | hx
      · exact hbs x hx
      · rw [List.mem_singleton.1 hx]; exact hb
    · rw [hstep, hrun]
      simp [World.run]

/-! ### Pulls do not depend on the database -/

omit [DecidableEq P] in
theorem tipPoints_withDb (nf : Block → Option P) (m : MV) (d : AMap (List UInt8) Block) :
    ∀ rs : List Ref, tipPoints nf (m.withDb d) rs = tipPoints nf m rs
  | [] => rfl
  | r :: rs => by
    simp only [tipPoints, show (m.withDb d).get r.key = m.get r.key from rfl, tipPoints_withDb nf m d rs]

theorem gc_withDb (keep : List Ref) : ∀ (rs : List Ref) (m : MV) (d : AMap (List UInt8) Block),
    ∃ d', gc keep (m.withDb d) rs = (gc keep m rs).map (·.withDb d')
  | [], m, d => ⟨d, rfl⟩
  | r :: rs, m, d => by
    simp only [gc, remove_withDb]
    cases h : m.remove (fun a => (keep ++ r :: rs).any (fun x => x.arc == a)) r.key with
    | error e => exact ⟨d, rfl⟩
    | ok x =>
      obtain ⟨d', h1⟩ := gc_withDb keep rs x.2 (AMap.erase d (mkKey x.1.number r.key))
      exact ⟨d', h1⟩

theorem insertAndGc_withDb (m : MV) (d : AMap (List UInt8) Block) (o : Orders) (depth : Nat) (v : Block)
    (hv : AMap.get m.all v.id = none) :
    ∃ d', insertAndGc (m.withDb d) o depth v = (insertAndGc m o depth v).map (fun x => (x.1, x.2.withDb d')) := by
  unfold insertAndGc insertAndSelect
  rw [insert_absent m v hv, insert_absent (m.withDb d) v hv, insertMem_withDb]
  cases hi : m.insertMem v with
  | error e => exact ⟨d, rfl⟩
  | ok m1 =>
    have e1 : ((Except.ok m1 : Except MvErr MV).map (·.withDb d)).map (·.withDb ((m.withDb d).dbInsert v).2.db) =
        .ok (m1.withDb ((m.withDb d).dbInsert v).2.db) := rfl
    have e2 : (Except.ok m1 : Except MvErr MV).map (·.withDb (m.dbInsert v).2.db) = .ok (m1.withDb (m.dbInsert v).2.db) := rfl
    rw [e1, e2]
    simp only [selectBest_withDb]
    cases hs : m1.selectBest (fun _ => false) o.best depth 1 with
    | error e => exact ⟨d, rfl⟩
    | ok x =>
      simp only
      obtain ⟨d1, h1⟩ := gc_withDb x.1.toList (discardList o x) m1 (m.dbInsert v).2.db
      obtain ⟨d2, h2⟩ := gc_withDb x.1.toList (discardList o x) m1 ((m.withDb d).dbInsert v).2.db
      rw [h1, h2]
      cases gc x.1.toList m1 (discardList o x) with
      | error e => exact ⟨d, rfl⟩
      | ok m2 => exact ⟨d2, rfl⟩

/-- The same source over another database answers the same, asks the same, and becomes the same but for the database. -/
theorem pull_withDb (nf : Block → Option P) (s : MSrc) (d : AMap (List UInt8) Block) (o : Orders) (from' : Option P)
    (resp : List P → Except Unit (Option Ev)) :
    ∃ d', (MSrc.pull nf { s with mv := s.mv.withDb d } o from' resp).res = (s.pull nf o from' resp).res ∧
      (MSrc.pull nf { s with mv := s.mv.withDb d } o from' resp).asked = (s.pull nf o from' resp).asked ∧
      (MSrc.pull nf { s with mv := s.mv.withDb d } o from' resp).src =
        { (s.pull nf o from' resp).src with mv := (s.pull nf o from' resp).src.mv.withDb d' } := by
  have hreq : MSrc.request nf { s with mv := s.mv.withDb d } o from' = s.request nf o from' := by
    simp only [MSrc.request, tipPoints_withDb]
    rfl
  unfold MSrc.pull
  rw [hreq]
  cases s.request nf o from' with
  | error e => exact ⟨d, rfl, rfl, rfl⟩
  | ok y =>
    cases y with
    | inl b => exact ⟨d, rfl, rfl, rfl⟩
    | inr ps =>
      simp only
      have key : ∀ x, ∃ d', (MSrc.answer { s with mv := s.mv.withDb d } o x).1 = (s.answer o x).1 ∧
          (MSrc.answer { s with mv := s.mv.withDb d } o x).2 = { (s.answer o x).2 with mv := (s.answer o x).2.mv.withDb d' } := by
        intro x
        cases x with
        | error e => exact ⟨d, rfl, rfl⟩
        | ok x =>
          cases x with
          | none => exact ⟨d, rfl, rfl⟩
          | some ev =>
            cases ev with
            | tip n => exact ⟨d, rfl, rfl⟩
            | block v =>
              simp only [MSrc.answer, show (s.mv.withDb d).get v.id = s.mv.get v.id from rfl]
              by_cases hg : (s.mv.get v.id).isSome
              · simp only [if_pos hg]
                exact ⟨d, by simp⟩
              · simp only [if_neg hg]
                have hno : AMap.get s.mv.all v.id = none := by
                  cases hh : AMap.get s.mv.all v.id with
                  | none => rfl
                  | some x =>
                    exfalso
                    apply hg
                    unfold MV.get
                    rw [hh]
                    rfl
                obtain ⟨d', h1⟩ := insertAndGc_withDb s.mv d o s.depth v hno
                unfold MSrc.store
                simp only [h1]
                cases insertAndGc s.mv o s.depth v with
                | error e => exact ⟨d, rfl, rfl⟩
                | ok x =>
                  refine ⟨d', ?_⟩
                  simp only [Except.map]
                  unfold MSrc.settle
                  cases x.1 with
                  | none => exact ⟨rfl, rfl⟩
                  | some k =>
                    simp only [show (x.2.withDb d').get k = x.2.get k from rfl]
                    split
                    · first | exact ⟨rfl, rfl⟩ | exact ⟨trivial, rfl⟩ | simp
                    · split
                      · first | exact ⟨rfl, rfl⟩ | exact ⟨trivial, rfl⟩ | simp
                      · first | exact ⟨rfl, rfl⟩ | exact ⟨trivial, rfl⟩ | simp
      obtain ⟨d', h1, h2⟩ := key (resp ps)
      exact ⟨d', h1, trivial, h2⟩

end Verif.Sources
