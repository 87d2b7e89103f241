import Verif.Multiverse.Shared

/-!
# A database that fails

`sled` may answer an access with an error (`MultiverseError::Sled`, `/repo/multiverse/src/lib.rs`). Each call is given
what happens to its access of the database. Opening is not considered here.
-/

namespace Verif.Multiverse

/-- What happens to a write: it is done; it fails and has no effect; it fails although it was done. -/
inductive Fault where
  | fine
  | lost
  | kept
deriving DecidableEq

/-- The error of a call: of the database, or of the multiverse. -/
inductive RErr where
  | db
  | mv (e : MvErr)
deriving DecidableEq

namespace MV

/-- The same multiverse over other contents of the database. -/
def withDb (m : MV) (d : AMap (List UInt8) Block) : MV := { m with db := d }

/-- `insert`, lib.rs:337-347. The database comes first, `?` in line 338, and is not accessed for blocks below `store_from`
(lib.rs:208). -/
def insertF (m : MV) (f : Fault) (v : Block) : Except RErr Unit × MV :=
  if m.storeFrom ≤ v.number ∧ f ≠ .fine then (.error .db, if f = .kept then (m.dbInsert v).2 else m)
  else
    match m.insert v with
    | .error e => (.error (.mv e), m)
    | .ok m' => (.ok (), m')

/-- `remove`, lib.rs:409-462. The database comes last, `?` in line 459. What a panic leaves behind is not modelled. -/
def removeF (m : MV) (f : Fault) (held : Nat → Bool) (k : Key) : Except RErr Block × MV :=
  match m.remove held k with
  | .error e => (.error (.mv e), m)
  | .ok x =>
    match f with
    | .fine => (.ok x.1, x.2)
    | .lost => (.error .db, x.2.withDb m.db)
    | .kept => (.error .db, x.2)

end MV

/-- A call: an insertion or a removal, with what the database does. -/
inductive FOp where
  | insert (f : Fault) (v : Block)
  | remove (f : Fault) (k : Key)

/-- The answer to a call, and the multiverse after it; nobody holds references. -/
def fStep (m : MV) : FOp → Option RErr × MV
  | .insert f v =>
    match m.insertF f v with
    | (.error e, m') => (some e, m')
    | (.ok _, m') => (none, m')
  | .remove f k =>
    match m.removeF f (fun _ => false) k with
    | (.error e, m') => (some e, m')
    | (.ok _, m') => (none, m')

/-- A list of calls. -/
def fRun (m : MV) (ops : List FOp) : MV := ops.foldl (fun m op => (fStep m op).2) m

/-- Which blocks should be shown, and which be stored, after a call: a failed insertion shows nothing; a failed removal
removes what is shown, and may leave it stored. -/
def faultSpec (storeFrom : Nat) (s : (Key → Bool) × (Key → Bool)) : FOp → (Key → Bool) × (Key → Bool)
  | .insert f v =>
    let stored : Key → Bool := fun k => s.2 k || decide (k = v.id)
    if storeFrom ≤ v.number then
      match f with
      | .fine => (fun k => s.1 k || decide (k = v.id), stored)
      | .lost => s
      | .kept => (s.1, stored)
    else (fun k => s.1 k || decide (k = v.id), s.2)
  | .remove f k =>
    if s.1 k then
      (fun k' => s.1 k' && !decide (k' = k), if f = .lost then s.2 else fun k' => s.2 k' && !decide (k' = k))
    else s

/-- After a list of calls on an empty multiverse. -/
def faultSpecs (storeFrom : Nat) (ops : List FOp) : (Key → Bool) × (Key → Bool) :=
  ops.foldl (faultSpec storeFrom) (fun _ => false, fun _ => false)

/-- The calls without the insertions that fail; removals stay even if they fail. -/
def FOp.shows (storeFrom : Nat) : FOp → Option Op
  | .insert f v => if storeFrom ≤ v.number ∧ f ≠ .fine then none else some (.insert v)
  | .remove _ k => some (.remove k (fun _ => false))

/-- Identifiers determine blocks, and numbers are 64-bit. -/
def FOp.Ok (B : Key → Block) : FOp → Prop
  | .insert _ v => v = B v.id ∧ v.number < 2 ^ 64
  | .remove _ _ => True

/-! ## Lemmas -/

theorem AMap_insert_insert {K V : Type} [DecidableEq K] (d : AMap K V) (k : K) (v : V) :
    AMap.insert (AMap.insert d k v) k v = AMap.insert d k v := by
  induction d with
  | nil => simp [AMap.insert]
  | cons x d ih =>
    obtain ⟨a, b⟩ := x
    by_cases h : a = k
    · simp [AMap.insert, h]
    · simp [AMap.insert, h, ih]

theorem insertMem_withDb (m : MV) (d : AMap (List UInt8) Block) (v : Block) :
    (m.withDb d).insertMem v = (m.insertMem v).map (·.withDb d) := by
  unfold MV.insertMem MV.withDb
  simp only
  cases h : AMap.get m.all v.parent with
  | some x => rfl
  | none =>
    simp only
    split
    · rfl
    · rfl

theorem unlink_withDb (m : MV) (d : AMap (List UInt8) Block) (held : Nat → Bool) (strong : List Ref) (k : Key) (p : Option Ref) :
    (m.withDb d).unlink held strong k p = (m.unlink held strong k p).map (·.withDb d) := by
  unfold MV.unlink
  cases p with
  | none => rfl
  | some r =>
    simp only [show (m.withDb d).refs = m.refs from rfl, show (m.withDb d).all = m.all from rfl,
      show (m.withDb d).tips = m.tips from rfl]
    split
    · cases AMap.get m.all r.key with
      | none => rfl
      | some x =>
        simp only
        split
        · split
          · split <;> rfl
          · rfl
        · rfl
    · rfl

/-- Removal works on the memory and the database apart. -/
theorem remove_withDb (m : MV) (d : AMap (List UInt8) Block) (held : Nat → Bool) (k : Key) :
    (m.withDb d).remove held k =
      (m.remove held k).map (fun x => (x.1, x.2.withDb (AMap.erase d (mkKey x.1.number k)))) := by
  unfold MV.remove
  simp only [show (m.withDb d).all = m.all from rfl, show (m.withDb d).roots = m.roots from rfl]
  cases AMap.get m.all k with
  | none => rfl
  | some x =>
    simp only
    cases orphan (setRemove m.roots k) (hasKey m.roots k) x.2.children with
    | error e => rfl
    | ok roots2 =>
      simp only
      have := unlink_withDb { m with all := AMap.erase m.all k, roots := roots2 } d held
        (if hasKey m.roots k then [] else x.2.children) k x.2.parent
      have h2 : MV.unlink { m.withDb d with all := AMap.erase m.all k, roots := roots2 } held
        (if hasKey m.roots k then [] else x.2.children) k x.2.parent = _ := this
      rw [h2]
      cases hu : MV.unlink { m with all := AMap.erase m.all k, roots := roots2 } held
        (if hasKey m.roots k then [] else x.2.children) k x.2.parent with
      | error e => rfl
      | ok m2 => rfl

theorem ancestor_withDb (m : MV) (d : AMap (List UInt8) Block) (held : Nat → Bool) :
    ∀ (n : Nat) (r : Ref), (m.withDb d).ancestor held n r = m.ancestor held n r
  | 0, _ => rfl
  | n + 1, r => by
    unfold MV.ancestor
    simp only [show (m.withDb d).refs = m.refs from rfl, show (m.withDb d).all = m.all from rfl]
    cases AMap.get m.all r.key with
    | none => rfl
    | some x =>
      simp only
      cases x.2.parent with
      | none => rfl
      | some p => simp only [ancestor_withDb m d held n p]

theorem candidate_withDb (m : MV) (d : AMap (List UInt8) Block) (held : Nat → Bool) (order : List Ref → List Ref) (depth : Nat) :
    (m.withDb d).candidate held order depth = m.candidate held order depth := by
  unfold MV.candidate
  simp only [show (m.withDb d).ordered = m.ordered from rfl, ancestor_withDb]

theorem selectBest_withDb (m : MV) (d : AMap (List UInt8) Block) (held : Nat → Bool) (order : List Ref → List Ref)
    (depth ageGap : Nat) : (m.withDb d).selectBest held order depth ageGap = m.selectBest held order depth ageGap := by
  unfold MV.selectBest
  simp only [candidate_withDb]
  rfl

theorem insert_absent (m : MV) (v : Block) (h : AMap.get m.all v.id = none) :
    m.insert v = (m.insertMem v).map (·.withDb (m.dbInsert v).2.db) := by
  have h1 : m.insert v = MV.insertMem (m.dbInsert v).2 v := by
    unfold MV.insert
    rw [if_neg]
    rintro ⟨_, h2⟩
    rw [h] at h2
    cases h2
  rw [h1, ← insertMem_withDb]
  congr 1
  unfold MV.dbInsert
  split <;> rfl

theorem calm_none (m : MV) (k : Key) : Calm m (fun _ => false) k := by
  intro a e r a' e' _ _ hf
  cases hf

/-- The invariant of `fRun`: the memory is that of the multiverse without faults, `m0`; the database is that of a multiverse
with the blocks stored. -/
structure FInv (B : Key → Block) (sf : Nat) (s : (Key → Bool) × (Key → Bool)) (m m0 : MV) : Prop where
  eq : m = m0.withDb m.db
  sf0 : m0.storeFrom = sf
  mem : ∃ S, Rel B m0 S ∧ (∀ k, (S k).isSome = s.1 k) ∧ ∀ k, s.1 k = true → sf ≤ (B k).number → s.2 k = true
  disk : ∃ q T, Rel B q T ∧ q.storeFrom = 0 ∧ q.db = m.db ∧ ∀ k, (T k).isSome = s.2 k

theorem FInv.empty (B : Key → Block) (sf : Nat) :
    FInv B sf (fun _ => false, fun _ => false) (MV.empty [] sf) (MV.empty [] sf) where
  eq := rfl
  sf0 := rfl
  mem := ⟨_, Rel.empty B sf, fun _ => rfl, fun _ h => by cases h⟩
  disk := ⟨_, _, Rel.empty B 0, rfl, rfl, fun _ => rfl⟩

/-- A block shown that should be stored is in the database. -/
theorem FInv.get_db {B : Key → Block} {sf : Nat} {s : (Key → Bool) × (Key → Bool)} {m m0 : MV} (h : FInv B sf s m m0) {k : Key}
    (hk : s.2 k = true) : AMap.get m.db (mkKey (B k).number k) = some (B k) := by
  obtain ⟨q, T, h1, h2, h3, h4⟩ := h.disk
  rw [← h3]
  obtain ⟨b, hb⟩ := Option.isSome_iff_exists.1 ((h4 k).trans hk)
  exact (h1.db _ _).2 ⟨k, b, hb, h1.all_saved h2 hb, rfl, rfl⟩

theorem specInsert_isSome (sf : Nat) (S : Tree) (v : Block) (k : Key) :
    (specInsert sf S v k).isSome = ((S k).isSome || decide (k = v.id)) := by
  unfold specInsert
  by_cases hs : (S v.id).isSome
  · rw [if_pos hs]
    by_cases hk : k = v.id
    · rw [hk, hs]; rfl
    · simp [hk]
  · rw [if_neg hs]
    by_cases hk : k = v.id
    · simp [hk]
    · simp [hk]

theorem specRemove_isSome (B : Key → Block) (S : Tree) (key k : Key) :
    (specRemove B S key k).isSome = ((S k).isSome && !decide (k = key)) := by
  unfold specRemove
  by_cases hk : k = key
  · simp [hk]
  · rw [if_neg hk]
    split <;> simp [hk]

/-- One call. -/
theorem FInv.step {B : Key → Block} {sf : Nat} {s : (Key → Bool) × (Key → Bool)} {m m0 : MV} (h : FInv B sf s m m0) {op : FOp}
    (hok : op.Ok B) : (fStep m op).1 ≠ some (.mv .panic) ∧
      ∃ m0', mvRun m0 (op.shows sf).toList = .ok m0' ∧ FInv B sf (faultSpec sf s op) (fStep m op).2 m0' := by
  obtain ⟨S, hr, hS, hsub⟩ := h.mem
  have hmsf : m.storeFrom = sf := by rw [h.eq]; exact h.sf0
  have hall : m.all = m0.all := by rw [h.eq]; rfl
  cases op with
  | insert f v =>
    obtain ⟨hB, hn⟩ : v = B v.id ∧ v.number < 2 ^ 64 := hok
    by_cases hf : sf ≤ v.number ∧ f ≠ .fine
    · -- the database fails
      have h1 : fStep m (.insert f v) = (some .db, if f = .kept then (m.dbInsert v).2 else m) := by
        unfold fStep MV.insertF
        rw [hmsf]
        simp only [if_pos hf]
      rw [h1]
      refine ⟨by simp, m0, ?_, ?_⟩
      · simp only [FOp.shows, if_pos hf]; rfl
      · cases f with
        | fine => exact absurd rfl hf.2
        | lost =>
          have : faultSpec sf s (.insert .lost v) = s := by simp only [faultSpec, if_pos hf.1]
          rw [this]
          exact h
        | kept =>
          obtain ⟨q, T, h2, h3, h4, h5⟩ := h.disk
          obtain ⟨q', T', h6, h7, h8, h9⟩ := disk_insert h2 h3 hB hn
          have hd : (m.dbInsert v).2 = m.withDb (AMap.insert m.db (mkKey v.number v.id) v) := by
            unfold MV.dbInsert
            rw [if_pos (by rw [hmsf]; exact hf.1)]
            rfl
          simp only [faultSpec, if_pos hf.1, if_true, hd]
          refine ⟨?_, h.sf0, ⟨S, hr, hS, fun k h10 h11 => ?_⟩, q', T', h6, h7, ?_, fun k => ?_⟩
          · rw [h.eq]; rfl
          · simp [hsub k h10 h11]
          · rw [h8, h4]; rfl
          · rw [h9, h5]
    · -- it does not
      obtain ⟨m0', h1, h2, h3⟩ := hr.insert hB hn
      have hrun : mvRun m0 ((FOp.insert f v).shows sf).toList = .ok m0' := by
        simp only [FOp.shows, if_neg hf, Option.toList_some]
        unfold mvRun mvStep
        simp only [h1]
        rfl
      have hins : ∃ m', m.insert v = .ok m' ∧ m' = m0'.withDb m'.db ∧
          m'.db = if sf ≤ v.number then AMap.insert m.db (mkKey v.number v.id) v else m.db := by
        by_cases hk : (S v.id).isSome
        · obtain ⟨m2, h4, h5, _⟩ := insert_same hr hB hk
          rw [h1] at h4
          cases h4
          have hsome : (AMap.get m.all v.id).isSome := by rw [hall, hr.get_all]; exact hk
          unfold MV.insert MV.dbInsert
          by_cases hle : sf ≤ v.number
          · have hle' : m.storeFrom ≤ v.number := by rw [hmsf]; exact hle
            have hg : AMap.get m.db (mkKey v.number v.id) = some v := by
              have := h.get_db (k := v.id) (hsub v.id ((hS v.id).symm.trans hk) (by rw [← hB]; exact hle))
              rwa [← hB] at this
            simp only [if_pos hle', if_pos hle, hg, Option.isNone_some, hsome, and_self, if_true]
            refine ⟨_, rfl, ?_, rfl⟩
            rw [h5]
            show m.withDb _ = m0.withDb _
            rw [h.eq]; rfl
          · have hle' : ¬ m.storeFrom ≤ v.number := by rw [hmsf]; exact hle
            simp only [if_neg hle', if_neg hle, hsome, and_self, if_true]
            refine ⟨_, rfl, ?_, rfl⟩
            rw [h5]
            exact h.eq
        · have hno : AMap.get m0.all v.id = none := by
            cases hh : AMap.get m0.all v.id with
            | none => rfl
            | some x =>
              have := hr.get_all v.id
              rw [hh] at this
              exact absurd this.symm hk
          rw [insert_absent m0 v hno] at h1
          rw [insert_absent m v (by rw [hall]; exact hno)]
          have h4 : m.insertMem v = (m0.insertMem v).map (·.withDb m.db) := by
            rw [← insertMem_withDb, ← h.eq]
          rw [h4]
          cases h5 : m0.insertMem v with
          | error e => rw [h5] at h1; cases h1
          | ok m1 =>
            rw [h5] at h1
            have h1 : m1.withDb _ = m0' := Except.ok.inj h1
            refine ⟨_, rfl, ?_, ?_⟩
            · rw [← h1]; rfl
            · show (m.dbInsert v).2.db = _
              unfold MV.dbInsert
              rw [hmsf]
              split <;> rfl
      obtain ⟨m', h4, h5, h6⟩ := hins
      have h7 : fStep m (.insert f v) = (none, m') := by
        unfold fStep MV.insertF
        rw [hmsf]
        simp only [if_neg hf, h4]
      rw [h7]
      refine ⟨by simp, m0', hrun, ?_⟩
      have hspec : faultSpec sf s (.insert f v) = (fun k => s.1 k || decide (k = v.id),
          if sf ≤ v.number then (fun k => s.2 k || decide (k = v.id)) else s.2) := by
        unfold faultSpec
        by_cases hle : sf ≤ v.number
        · have hff : f = .fine := by
            by_contra hne
            exact hf ⟨hle, hne⟩
          subst hff
          simp only [if_pos hle]
        · simp only [if_neg hle]
      rw [hspec]
      refine ⟨h5, h3.trans h.sf0, ⟨_, h2, fun k => ?_, fun k h8 h9 => ?_⟩, ?_⟩
      · rw [specInsert_isSome, hS]
      · simp only [Bool.or_eq_true, decide_eq_true_eq] at h8
        rcases h8 with h8 | rfl
        · have := hsub k h8 h9
          split
          · simp [this]
          · exact this
        · rw [← hB] at h9
          simp [if_pos h9]
      · obtain ⟨q, T, g2, g3, g4, g5⟩ := h.disk
        by_cases hle : sf ≤ v.number
        · obtain ⟨q', T', g6, g7, g8, g9⟩ := disk_insert g2 g3 hB hn
          refine ⟨q', T', g6, g7, ?_, fun k => ?_⟩
          · show q'.db = m'.db
            rw [h6, if_pos hle, g8, g4]
          · simp only [if_pos hle]
            rw [g9, g5]
        · refine ⟨q, T, g2, g3, ?_, fun k => ?_⟩
          · show q.db = m'.db
            rw [h6, if_neg hle, g4]
          · simp only [if_neg hle]
            exact g5 k
  | remove f k =>
    have hrm : m.remove (fun _ => false) k = (m0.remove (fun _ => false) k).map
        (fun x => (x.1, x.2.withDb (AMap.erase m.db (mkKey x.1.number k)))) := by
      rw [← remove_withDb, ← h.eq]
    by_cases hk : (S k).isSome
    · obtain ⟨m0', h1, h2, h3⟩ := hr.remove (calm_none m0 k) hk
      have hk1 : s.1 k = true := (hS k).symm.trans hk
      have hrun : mvRun m0 ((FOp.remove f k).shows sf).toList = .ok m0' := by
        simp only [FOp.shows, Option.toList_some]
        unfold mvRun mvStep
        simp only [h1]
        rfl
      rw [h1] at hrm
      have hrm : m.remove (fun _ => false) k = .ok (B k, m0'.withDb (AMap.erase m.db (mkKey (B k).number k))) := hrm
      have hst : ∃ d, (fStep m (.remove f k)).1 ≠ some (.mv .panic) ∧ (fStep m (.remove f k)).2 = m0'.withDb d ∧
          d = if f = .lost then m.db else AMap.erase m.db (mkKey (B k).number k) := by
        unfold fStep MV.removeF
        simp only [hrm]
        cases f with
        | fine => exact ⟨_, by simp, rfl, rfl⟩
        | lost => exact ⟨_, by simp, rfl, rfl⟩
        | kept => exact ⟨_, by simp, rfl, rfl⟩
      obtain ⟨d, h4, h5, h6⟩ := hst
      refine ⟨h4, m0', hrun, ?_⟩
      rw [h5]
      simp only [faultSpec, if_pos hk1]
      obtain ⟨b, hb⟩ := Option.isSome_iff_exists.1 hk
      refine ⟨rfl, h3.trans h.sf0, ⟨_, h2, fun k' => ?_, fun k' h8 h9 => ?_⟩, ?_⟩
      · rw [specRemove_isSome, hS]
      · simp only [Bool.and_eq_true] at h8
        have := hsub k' h8.1 h9
        split
        · exact this
        · simp only [this, h8.2, Bool.and_self]
      · obtain ⟨q, T, g2, g3, g4, g5⟩ := h.disk
        by_cases hl : f = .lost
        · refine ⟨q, T, g2, g3, ?_, fun k' => ?_⟩
          · show q.db = d
            rw [h6, if_pos hl, g4]
          · simp only [if_pos hl]; exact g5 k'
        · obtain ⟨q', T', g6, g7, g8, g9⟩ := disk_remove g2 g3 k (hr.num k b hb)
          refine ⟨q', T', g6, g7, ?_, fun k' => ?_⟩
          · show q'.db = d
            rw [h6, if_neg hl, g8, g4]
          · simp only [if_neg hl]
            rw [g9, g5]
    · have hno : AMap.get m0.all k = none := by
        cases hh : AMap.get m0.all k with
        | none => rfl
        | some x =>
          have := hr.get_all k
          rw [hh] at this
          exact absurd this.symm hk
      have h0 : m0.remove (fun _ => false) k = .error .notFound := by
        unfold MV.remove; rw [hno]
      have hk1 : ¬ s.1 k = true := fun hh => hk ((hS k).trans hh)
      rw [h0] at hrm
      have hrm : m.remove (fun _ => false) k = .error .notFound := hrm
      have hst : fStep m (.remove f k) = (some (.mv .notFound), m) := by
        unfold fStep MV.removeF
        simp only [hrm]
      rw [hst]
      refine ⟨by simp, m0, ?_, ?_⟩
      · simp only [FOp.shows, Option.toList_some]
        unfold mvRun mvStep
        simp only [h0]
        rfl
      · simp only [faultSpec, if_neg hk1]
        exact h

theorem mvRun_append : ∀ (as bs : List Op) {m m1 : MV}, mvRun m as = .ok m1 → mvRun m (as ++ bs) = mvRun m1 bs
  | [], _, _, _, h => by cases h; rfl
  | a :: as, bs, m, m1, h => by
    unfold mvRun at h
    rw [List.cons_append, mvRun]
    cases h1 : mvStep m a with
    | error e => rw [h1] at h; cases h
    | ok m2 =>
      rw [h1] at h
      exact mvRun_append as bs h

theorem FInv.run {B : Key → Block} {sf : Nat} : ∀ (ops : List FOp) {s : (Key → Bool) × (Key → Bool)} {m m0 : MV}, FInv B sf s m m0 →
    (∀ op ∈ ops, op.Ok B) → ∃ m0', mvRun m0 (ops.filterMap (FOp.shows sf)) = .ok m0' ∧
      FInv B sf (ops.foldl (faultSpec sf) s) (fRun m ops) m0'
  | [], s, m, m0, h, _ => ⟨m0, rfl, h⟩
  | op :: ops, s, m, m0, h, hok => by
    obtain ⟨_, m1, h1, h2⟩ := h.step (hok op (by simp))
    obtain ⟨m2, h3, h4⟩ := FInv.run ops h2 (fun o ho => hok o (List.mem_cons_of_mem _ ho))
    refine ⟨m2, ?_, h4⟩
    have e : (op :: ops).filterMap (FOp.shows sf) = (op.shows sf).toList ++ ops.filterMap (FOp.shows sf) := by
      rw [List.filterMap_cons]
      cases op.shows sf <;> rfl
    rw [e, mvRun_append _ _ h1]
    exact h3

end Verif.Multiverse
