import Verif.Multiverse.Spec

/-!
# Several multiverses in one database

Models the use of `sled` in `/repo/multiverse/src/lib.rs`: a database has a tree of keys and byte strings for
each domain, and the blocks in them are written and read with `serde_json`. The encoding of the blocks is a
parameter. The multiverse of a domain is an `MV` of which the field `db` is not used.
-/

namespace Verif.Multiverse

/-- The encoding of blocks, `serde_json::to_vec` and `from_slice`, lib.rs:210, 298. Both can fail. -/
structure Codec where
  enc : Block → Option (List UInt8)
  dec : List UInt8 → Option Block

/-- The contents of a tree, `sled::Tree`. -/
abbrev RawTree := AMap (List UInt8) (List UInt8)

/-- A database with the multiverses that are open in it, at most one in each domain. -/
structure World where
  trees : AMap String RawTree
  mem : AMap String MV

/-- Errors: of the encoding, and those of a multiverse. -/
inductive DErr where
  | serde
  | mv (e : MvErr)
deriving DecidableEq

/-- The requests to a domain. -/
inductive Req where
  /-- `load_from`, lib.rs:289. -/
  | load (storeFrom : Nat)
  | insert (v : Block)
  | remove (k : Key) (held : Nat → Bool)
  | clear
  /-- `destroy`, lib.rs:229. -/
  | destroy
  /-- The multiverse is dropped. -/
  | close

/-- The contents of a domain. A tree is created when it is opened first. -/
def World.tree (w : World) (d : String) : RawTree := (AMap.get w.trees d).getD []

/-- Replace the contents of a domain. -/
def World.setTree (w : World) (d : String) (t : RawTree) : World := { w with trees := AMap.insert w.trees d t }

/-- Replace the multiverse of a domain. -/
def World.setMem (w : World) (d : String) (m : MV) : World := { w with mem := AMap.insert w.mem d m }

/-- Insertion into a list in the order of keys. -/
def insertByKey {α : Type} (x : List UInt8 × α) : List (List UInt8 × α) → List (List UInt8 × α)
  | [] => [x]
  | y :: ys => if x.1 < y.1 then x :: y :: ys else y :: insertByKey x ys

/-- `tree.iter()`: the entries in the byte order of keys. -/
def sortByKey {α : Type} (t : List (List UInt8 × α)) : List (List UInt8 × α) := t.foldr insertByKey []

/-- The loop of `load_from`, lib.rs:296-301: each value is read and inserted. -/
def loadRaw (C : Codec) (m : MV) : List (List UInt8) → Except DErr MV
  | [] => .ok m
  | b :: bs =>
    match C.dec b with
    | none => .error .serde
    | some v =>
      match m.insertMem v with
      | .error e => .error (.mv e)
      | .ok m1 => loadRaw C m1 bs

/-- `load_from`, lib.rs:289-304, after `open_tree`, lib.rs:166. -/
def World.load (C : Codec) (w : World) (d : String) (storeFrom : Nat) : Except DErr Unit × World :=
  let w1 : World := { (w.setTree d (w.tree d)) with mem := AMap.erase w.mem d }
  match loadRaw C (MV.empty [] storeFrom) ((sortByKey (w.tree d)).map Prod.snd) with
  | .error e => (.error e, w1)
  | .ok m => (.ok (), w1.setMem d m)

/-- The part of `insert` after `db_insert`, lib.rs:338-346; `fresh` is what that returned. -/
def World.insertIn (w : World) (d : String) (m : MV) (v : Block) (fresh : Bool) : Except DErr Unit × World :=
  if fresh = false ∧ (AMap.get m.all v.id).isSome then (.ok (), w)
  else
    match m.insertMem v with
    | .error e => (.error (.mv e), w)
    | .ok m1 => (.ok (), w.setMem d m1)

/-- `insert`, lib.rs:337-347, with `db_insert`, lib.rs:202-216. -/
def World.insert (C : Codec) (w : World) (d : String) (m : MV) (v : Block) : Except DErr Unit × World :=
  if m.storeFrom ≤ v.number then
    match C.enc v with
    | none => (.error .serde, w)
    | some b =>
      (w.setTree d (AMap.insert (w.tree d) (mkKey v.number v.id) b)).insertIn d m v
        (AMap.get (w.tree d) (mkKey v.number v.id)).isNone
  else w.insertIn d m v false

/-- `remove`, lib.rs:409-462, with `db_remove`, lib.rs:192-197. -/
def World.remove (w : World) (d : String) (m : MV) (k : Key) (held : Nat → Bool) : Except DErr Unit × World :=
  match m.remove held k with
  | .error e => (.error (.mv e), w)
  | .ok (v, m1) => (.ok (), (w.setTree d (AMap.erase (w.tree d) (mkKey v.number k))).setMem d m1)

/-- A request to a domain. Without an open multiverse there is none but `load`. `destroy` drops the tree of
the domain, lib.rs:229-240; that the domain is not the default tree of `sled`, which cannot be dropped, is
assumed. -/
def World.step (C : Codec) (w : World) (d : String) (r : Req) : Except DErr Unit × World :=
  match r, AMap.get w.mem d with
  | .load sf, _ => w.load C d sf
  | _, none => (.ok (), w)
  | .insert v, some m => w.insert C d m v
  | .remove k held, some m => w.remove d m k held
  | .clear, some m => (.ok (), (w.setTree d []).setMem d m.clear)
  | .destroy, some _ => (.ok (), ⟨AMap.erase w.trees d, AMap.erase w.mem d⟩)
  | .close, some _ => (.ok (), { w with mem := AMap.erase w.mem d })

/-- A list of requests to domains, until one fails otherwise than by not finding a block to remove. -/
def World.run (C : Codec) (w : World) : List (String × Req) → Except DErr World
  | [] => .ok w
  | (d, r) :: rest =>
    match w.step C d r with
    | (.ok _, w1) => w1.run C rest
    | (.error (.mv .notFound), w1) => w1.run C rest
    | (.error e, _) => .error e

/-- The requests to the domain `d`, as those to one multiverse: opening reads back what is stored, destroying
forgets all. -/
def own (d : String) : Bool → List (String × Req) → List Op
  | _, [] => []
  | isOpen, (d', r) :: rest =>
    if d' = d then
      match r, isOpen with
      | .load sf, _ => .reopen sf :: own d true rest
      | _, false => own d false rest
      | .insert v, true => .insert v :: own d true rest
      | .remove k held, true => .remove k held :: own d true rest
      | .clear, true => .clear :: own d true rest
      | .destroy, true => .clear :: own d false rest
      | .close, true => own d false rest
    else own d isOpen rest

/-! ### The memory does not depend on the database -/

theorem insertMem_db (m : MV) (x : AMap (List UInt8) Block) (v : Block) :
    ({ m with db := x } : MV).insertMem v = (m.insertMem v).map (fun m1 => { m1 with db := x }) := by
  unfold MV.insertMem
  dsimp only
  cases AMap.get m.all v.parent with
  | none => dsimp only; split <;> rfl
  | some p => rfl

theorem insertMem_keeps {m m1 : MV} {v : Block} (h : m.insertMem v = .ok m1) :
    m1.db = m.db ∧ m1.storeFrom = m.storeFrom := by
  unfold MV.insertMem at h
  split at h
  · cases h; exact ⟨rfl, rfl⟩
  · split at h
    · cases h
    · cases h; exact ⟨rfl, rfl⟩

theorem insertAll_db (x : AMap (List UInt8) Block) : ∀ (vs : List Block) (m : MV),
    ({ m with db := x } : MV).insertAll vs = (m.insertAll vs).map (fun m1 => { m1 with db := x })
  | [], _ => rfl
  | v :: vs, m => by
    unfold MV.insertAll
    rw [insertMem_db]
    cases m.insertMem v with
    | error e => rfl
    | ok m1 => exact insertAll_db x vs m1

theorem unlink_db (m : MV) (x : AMap (List UInt8) Block) (held : Nat → Bool) (s : List Ref) (k : Key)
    (p : Option Ref) : MV.unlink { m with db := x } held s k p =
      (m.unlink held s k p).map (fun m1 => { m1 with db := x }) := by
  unfold MV.unlink
  cases p with
  | none => rfl
  | some r =>
    dsimp only
    show (if alive (m.refs ++ s) held r.arc = true then _ else _) = _
    split
    · split
      · rfl
      · split
        · split
          · split <;> rfl
          · rfl
        · rfl
    · rfl

theorem unlink_keeps {m m1 : MV} {held : Nat → Bool} {s : List Ref} {k : Key} {p : Option Ref}
    (h : m.unlink held s k p = .ok m1) : m1.db = m.db := by
  unfold MV.unlink at h
  split at h
  · cases h; rfl
  · split at h
    · split at h
      · cases h; rfl
      · split at h
        · dsimp only at h
          split at h
          · split at h
            · cases h
            · cases h; rfl
          · cases h; rfl
        · cases h
    · cases h; rfl

theorem remove_db (m : MV) (x : AMap (List UInt8) Block) (held : Nat → Bool) (k : Key) :
    MV.remove { m with db := x } held k = (m.remove held k).map
      (fun y => (y.1, { y.2 with db := AMap.erase x (mkKey y.1.number k) })) := by
  unfold MV.remove
  dsimp only
  cases AMap.get m.all k with
  | none => rfl
  | some p =>
    obtain ⟨a, e⟩ := p
    dsimp only
    cases orphan (setRemove m.roots k) (hasKey m.roots k) e.children with
    | error err => rfl
    | ok roots2 =>
      dsimp only
      have h := unlink_db { m with all := AMap.erase m.all k, roots := roots2 } x held
        (if hasKey m.roots k then [] else e.children) k e.parent
      dsimp only at h
      rw [h]
      cases h2 : MV.unlink { m with all := AMap.erase m.all k, roots := roots2 } held
        (if hasKey m.roots k then [] else e.children) k e.parent with
      | error err => rfl
      | ok m2 => rfl

theorem remove_keeps {m m1 : MV} {held : Nat → Bool} {k : Key} {v : Block} (h : m.remove held k = .ok (v, m1)) :
    m1.db = AMap.erase m.db (mkKey v.number k) := by
  unfold MV.remove at h
  split at h
  · cases h
  · dsimp only at h
    split at h
    · cases h
    · split at h
      · cases h
      · rename_i m2 h2
        cases h
        have := unlink_keeps h2
        dsimp only [MV.dbRemove] at this ⊢
        rw [this]

/-! ### Reading the database -/

theorem dbSorted_eq (db : AMap (List UInt8) Block) : dbSorted db = sortByKey db := by
  have h : ∀ x (l : List (List UInt8 × Block)), insertSorted x l = insertByKey x l := by
    intro x l
    induction l with
    | nil => rfl
    | cons y ys ih => simp only [insertSorted, insertByKey, ih]
  unfold dbSorted sortByKey
  induction db with
  | nil => rfl
  | cons x xs ih => simp only [List.foldr_cons, ih, h]

theorem insertByKey_map {α β : Type} (f : α → β) (x : List UInt8 × α) (l : List (List UInt8 × α)) :
    (insertByKey x l).map (Prod.map id f) = insertByKey (Prod.map id f x) (l.map (Prod.map id f)) := by
  induction l with
  | nil => rfl
  | cons y ys ih =>
    simp only [insertByKey, List.map_cons, Prod.map_fst, id]
    split
    · rfl
    · rw [List.map_cons, ih]

theorem sortByKey_map {α β : Type} (f : α → β) (l : List (List UInt8 × α)) :
    (sortByKey l).map (Prod.map id f) = sortByKey (l.map (Prod.map id f)) := by
  unfold sortByKey
  induction l with
  | nil => rfl
  | cons x xs ih => simp only [List.foldr_cons, List.map_cons, insertByKey_map, ih]

theorem mem_insertByKey {α : Type} {x y : List UInt8 × α} {l : List (List UInt8 × α)} :
    y ∈ insertByKey x l ↔ y = x ∨ y ∈ l := by
  induction l with
  | nil => simp [insertByKey]
  | cons z zs ih =>
    simp only [insertByKey]
    split
    · simp
    · simp only [List.mem_cons, ih]; tauto

theorem mem_sortByKey {α : Type} {y : List UInt8 × α} {l : List (List UInt8 × α)} :
    y ∈ sortByKey l ↔ y ∈ l := by
  unfold sortByKey
  induction l with
  | nil => simp
  | cons x xs ih => simp only [List.foldr_cons, mem_insertByKey, ih, List.mem_cons]

/-- The tree has the blocks of the database, encoded. -/
def Reads (C : Codec) (t : RawTree) (db : AMap (List UInt8) Block) : Prop :=
  t.map (Prod.map id C.dec) = db.map (Prod.map id some)

theorem Reads.insert {C : Codec} {t : RawTree} {db : AMap (List UInt8) Block} (h : Reads C t db) (k : List UInt8)
    {b : List UInt8} {v : Block} (hb : C.dec b = some v) : Reads C (AMap.insert t k b) (AMap.insert db k v) := by
  unfold Reads at h ⊢
  induction t generalizing db with
  | nil =>
    cases db with
    | nil => simp [AMap.insert, hb]
    | cons y ys => simp at h
  | cons x xs ih =>
    cases db with
    | nil => simp at h
    | cons y ys =>
      obtain ⟨k1, b1⟩ := x
      obtain ⟨k2, v2⟩ := y
      simp only [List.map_cons, List.cons.injEq, Prod.map_apply, id, Prod.mk.injEq] at h
      obtain ⟨⟨rfl, h1⟩, h2⟩ := h
      simp only [AMap.insert]
      split
      · simp [hb, h2]
      · simp [h1, ih h2]

theorem Reads.get {C : Codec} {t : RawTree} {db : AMap (List UInt8) Block} (h : Reads C t db) (k : List UInt8) :
    (AMap.get t k).isNone = (AMap.get db k).isNone := by
  unfold Reads at h
  induction t generalizing db with
  | nil =>
    cases db with
    | nil => rfl
    | cons y ys => simp at h
  | cons x xs ih =>
    cases db with
    | nil => simp at h
    | cons y ys =>
      obtain ⟨k1, b1⟩ := x
      obtain ⟨k2, v2⟩ := y
      simp only [List.map_cons, List.cons.injEq, Prod.map_apply, id, Prod.mk.injEq] at h
      obtain ⟨⟨rfl, h1⟩, h2⟩ := h
      simp only [AMap.get]
      split
      · rfl
      · exact ih h2

theorem Reads.erase {C : Codec} {t : RawTree} {db : AMap (List UInt8) Block} (h : Reads C t db) (k : List UInt8) :
    Reads C (AMap.erase t k) (AMap.erase db k) := by
  unfold Reads at h ⊢
  induction t generalizing db with
  | nil =>
    cases db with
    | nil => rfl
    | cons y ys => simp at h
  | cons x xs ih =>
    cases db with
    | nil => simp at h
    | cons y ys =>
      obtain ⟨k1, b1⟩ := x
      obtain ⟨k2, v2⟩ := y
      simp only [List.map_cons, List.cons.injEq, Prod.map_apply, id, Prod.mk.injEq] at h
      obtain ⟨⟨rfl, h1⟩, h2⟩ := h
      have h3 := ih h2
      unfold AMap.erase at h3 ⊢
      simp only [List.filter_cons]
      split
      · rw [List.map_cons, List.map_cons, h3]
        simp [h1]
      · exact h3

theorem loadRaw_of_dec {C : Codec} : ∀ {bs : List (List UInt8)} {vs : List Block} {m : MV},
    bs.map C.dec = vs.map some →
      loadRaw C m bs = (match m.insertAll vs with
        | .ok m1 => .ok m1
        | .error e => .error (.mv e))
  | [], [], _, _ => rfl
  | [], _ :: _, _, h => by simp at h
  | _ :: _, [], _, h => by simp at h
  | b :: bs, v :: vs, m, h => by
    simp only [List.map_cons, List.cons.injEq] at h
    unfold loadRaw MV.insertAll
    rw [h.1]
    dsimp only
    cases m.insertMem v with
    | error e => rfl
    | ok m1 => exact loadRaw_of_dec h.2

theorem Reads.load {C : Codec} {t : RawTree} {db : AMap (List UInt8) Block} (h : Reads C t db) {sf : Nat} {m : MV}
    (hm : loadFrom db sf = .ok m) :
    loadRaw C (MV.empty [] sf) ((sortByKey t).map Prod.snd) = .ok { m with db := [] } ∧ m.db = db := by
  have h1 : ((sortByKey t).map Prod.snd).map C.dec = ((dbSorted db).map Prod.snd).map some := by
    have h2 : (sortByKey t).map (Prod.map id C.dec) = (sortByKey db).map (Prod.map id some) := by
      rw [sortByKey_map, sortByKey_map]
      exact congrArg sortByKey h
    have h3 := congrArg (List.map Prod.snd) h2
    rw [List.map_map, List.map_map] at h3
    rw [dbSorted_eq, List.map_map, List.map_map]
    exact h3
  rw [loadRaw_of_dec h1]
  unfold loadFrom at hm
  have h4 := insertAll_db db ((dbSorted db).map Prod.snd) (MV.empty [] sf)
  have h5 : ({ (MV.empty [] sf) with db := db } : MV) = MV.empty db sf := rfl
  rw [h5, hm] at h4
  have hkeep : ∀ (vs : List Block) (m m1 : MV), m.insertAll vs = .ok m1 → m1.db = m.db := by
    intro vs
    induction vs with
    | nil => intro m m1 h; cases h; rfl
    | cons v vs ih =>
      intro m m1 h
      unfold MV.insertAll at h
      split at h
      · cases h
      · rename_i m2 h2
        rw [ih _ _ h, (insertMem_keeps h2).1]
  cases h6 : (MV.empty [] sf).insertAll ((dbSorted db).map Prod.snd) with
  | error e => rw [h6] at h4; cases h4
  | ok m1 =>
    rw [h6] at h4
    cases h4
    have h7 := hkeep _ _ _ h6
    refine ⟨?_, rfl⟩
    show Except.ok m1 = Except.ok { m1 with db := [] }
    rw [show ({ m1 with db := [] } : MV) = { m1 with db := (MV.empty [] sf).db } from rfl, ← h7]

/-! ### Each domain runs as if it were alone -/

/-- What the domain `d` has in common with a multiverse alone. -/
structure Alone (C : Codec) (w : World) (d : String) (isOpen : Bool) (m : MV) : Prop where
  open_iff : (AMap.get w.mem d).isSome = isOpen
  reads : Reads C (w.tree d) m.db
  mem : ∀ h, AMap.get w.mem d = some h → h = { m with db := [] }

theorem tree_setTree (w : World) (d d' : String) (t : RawTree) :
    (w.setTree d t).tree d' = if d = d' then t else w.tree d' := by
  unfold World.setTree World.tree
  dsimp only
  rw [AMap.get_insert]
  split <;> rfl

theorem tree_setMem (w : World) (d d' : String) (m : MV) : (w.setMem d m).tree d' = w.tree d' := rfl

/-- A request leaves the other domains. -/
theorem step_other (C : Codec) (w : World) {d d' : String} (hd : d ≠ d') (r : Req) :
    (w.step C d r).2.tree d' = w.tree d' ∧ AMap.get (w.step C d r).2.mem d' = AMap.get w.mem d' := by
  have hi : ∀ (w : World) (m : MV) (v : Block) (fresh : Bool), (w.insertIn d m v fresh).2.tree d' = w.tree d' ∧
      AMap.get (w.insertIn d m v fresh).2.mem d' = AMap.get w.mem d' := by
    intro w m v fresh
    unfold World.insertIn
    split
    · exact ⟨rfl, rfl⟩
    · split
      · exact ⟨rfl, rfl⟩
      · exact ⟨rfl, by simp [World.setMem, AMap.get_insert, hd]⟩
  unfold World.step
  split
  · unfold World.load
    dsimp only
    split
    · refine ⟨?_, by simp [AMap.get_erase, hd]⟩
      have := tree_setTree w d d' (w.tree d)
      rw [if_neg hd] at this
      exact this
    · refine ⟨?_, by simp [World.setMem, AMap.get_insert, AMap.get_erase, hd]⟩
      have := tree_setTree w d d' (w.tree d)
      rw [if_neg hd] at this
      exact this
  · exact ⟨rfl, rfl⟩
  · unfold World.insert
    split
    · split
      · exact ⟨rfl, rfl⟩
      · refine ⟨(hi _ _ _ _).1.trans ?_, (hi _ _ _ _).2⟩
        rw [tree_setTree, if_neg hd]
    · exact hi _ _ _ _
  · unfold World.remove
    split
    · exact ⟨rfl, rfl⟩
    · refine ⟨?_, by simp [World.setMem, World.setTree, AMap.get_insert, hd]⟩
      rw [tree_setMem, tree_setTree, if_neg hd]
  · refine ⟨?_, by simp [World.setMem, World.setTree, AMap.get_insert, hd]⟩
    rw [tree_setMem, tree_setTree, if_neg hd]
  · exact ⟨by simp [World.tree, AMap.get_erase, hd], by simp [AMap.get_erase, hd]⟩
  · exact ⟨rfl, by simp [AMap.get_erase, hd]⟩

/-- The blocks that are inserted are read back from what is written of them. -/
def Lossless (C : Codec) (acts : List (String × Req)) : Prop :=
  ∀ d v, (d, Req.insert v) ∈ acts → ∃ b, C.enc v = some b ∧ C.dec b = some v

/-- The request as one to a multiverse alone. -/
def asOp : Bool → Req → Option Op
  | _, .load sf => some (.reopen sf)
  | true, .insert v => some (.insert v)
  | true, .remove k held => some (.remove k held)
  | true, .clear => some .clear
  | true, .destroy => some .clear
  | _, _ => none

/-- Is the multiverse of the domain open after the request? -/
def opens : Bool → Req → Bool
  | _, .load _ => true
  | _, .destroy => false
  | _, .close => false
  | o, _ => o

/-- Is the multiverse of `d` open after the requests? -/
def openAfter (d : String) (o : Bool) (acts : List (String × Req)) : Bool :=
  acts.foldl (fun o a => if a.1 = d then opens o a.2 else o) o

theorem own_cons (d d' : String) (o : Bool) (r : Req) (rest : List (String × Req)) :
    own d o ((d', r) :: rest) = if d' = d then
      (match asOp o r with | some op => op :: own d (opens o r) rest | none => own d (opens o r) rest)
      else own d o rest := by
  conv_lhs => unfold own
  split
  · cases r <;> cases o <;> rfl
  · rfl

/-- A request to a domain does what it does to the multiverse alone. -/
theorem Alone.step {C : Codec} {w : World} {d : String} {o : Bool} {m m1 : MV} {r : Req} (h : Alone C w d o m)
    (hl : ∀ v, r = .insert v → ∃ b, C.enc v = some b ∧ C.dec b = some v)
    (hm : (match asOp o r with | some op => mvStep m op | none => .ok m) = .ok m1) :
    ((w.step C d r).1 = .ok () ∨ (w.step C d r).1 = .error (.mv .notFound)) ∧
      Alone C (w.step C d r).2 d (opens o r) m1 := by
  obtain ⟨h1, h2, h3⟩ := h
  by_cases hload : ∃ sf, r = .load sf
  · obtain ⟨sf, rfl⟩ := hload
    have hm' : loadFrom m.db sf = .ok m1 := by cases o <;> exact hm
    obtain ⟨h4, h5⟩ := h2.load hm'
    have hs : w.step C d (.load sf) = w.load C d sf := by unfold World.step; rfl
    rw [hs]
    unfold World.load
    dsimp only
    rw [h4]
    dsimp only
    refine ⟨.inl rfl, by simp [World.setMem, AMap.get_insert]; cases o <;> rfl, ?_, ?_⟩
    · have := tree_setTree w d d (w.tree d)
      rw [if_pos rfl] at this
      rw [tree_setMem]
      show Reads C ((w.setTree d (w.tree d)).tree d) m1.db
      rw [this, h5]
      exact h2
    · intro h hh
      simp [World.setMem, AMap.get_insert] at hh
      exact hh.symm
  · cases hg : AMap.get w.mem d with
    | none =>
      rw [hg] at h1
      have ho : o = false := by simpa using h1.symm
      subst ho
      have hs : w.step C d r = (.ok (), w) := by
        unfold World.step
        rw [hg]
        cases r <;> first | rfl | exact absurd ⟨_, rfl⟩ hload
      rw [hs]
      have hm' : m1 = m := by
        cases r <;> first | (cases hm; rfl) | exact absurd ⟨_, rfl⟩ hload
      subst hm'
      refine ⟨.inl rfl, ?_, h2, h3⟩
      rw [hg]
      cases r <;> first | rfl | exact absurd ⟨_, rfl⟩ hload
    | some h0 =>
      have h0e := h3 h0 hg
      rw [hg] at h1
      have ho : o = true := by simpa using h1.symm
      subst ho
      cases r with
      | load sf => exact absurd ⟨sf, rfl⟩ hload
      | insert v =>
        have hm' : m.insert v = .ok m1 := hm
        have hs : w.step C d (.insert v) = w.insert C d h0 v := by unfold World.step; rw [hg]
        rw [hs]
        have hin : ∀ (w' : World) (fresh : Bool) (db' : AMap (List UInt8) Block), w'.mem = w.mem →
            Reads C (w'.tree d) db' →
            (if fresh = false ∧ (AMap.get m.all v.id).isSome then Except.ok { m with db := db' }
              else MV.insertMem { m with db := db' } v) = .ok m1 →
            ((w'.insertIn d h0 v fresh).1 = .ok () ∨ (w'.insertIn d h0 v fresh).1 = .error (.mv .notFound)) ∧
              Alone C (w'.insertIn d h0 v fresh).2 d true m1 := by
          intro w' fresh db' hw hr hi
          subst h0e
          unfold World.insertIn
          dsimp only
          by_cases hc : fresh = false ∧ (AMap.get m.all v.id).isSome = true
          · rw [if_pos hc] at hi ⊢
            cases hi
            refine ⟨.inl rfl, by dsimp only; rw [hw, hg]; rfl, hr, ?_⟩
            intro h hh
            dsimp only at hh
            rw [hw, hg] at hh
            cases hh
            rfl
          · rw [if_neg hc] at hi ⊢
            rw [insertMem_db] at hi
            rw [insertMem_db]
            cases h6 : m.insertMem v with
            | error e => rw [h6] at hi; cases hi
            | ok m2 =>
              rw [h6] at hi
              cases hi
              refine ⟨.inl rfl, by simp [Except.map, World.setMem, AMap.get_insert], hr, ?_⟩
              intro h hh
              simp [Except.map, World.setMem, AMap.get_insert] at hh
              exact hh.symm
        have hsf : h0.storeFrom = m.storeFrom := by rw [h0e]
        unfold World.insert
        unfold MV.insert MV.dbInsert at hm'
        by_cases hn : m.storeFrom ≤ v.number
        · rw [if_pos (by rw [hsf]; exact hn)]
          rw [if_pos hn] at hm'
          obtain ⟨b, hb1, hb2⟩ := hl v rfl
          rw [hb1]
          dsimp only
          refine hin _ _ (AMap.insert m.db (mkKey v.number v.id) v) rfl ?_ ?_
          · rw [tree_setTree, if_pos rfl]
            exact h2.insert _ hb2
          · rw [h2.get]
            exact hm'
        · rw [if_neg (by rw [hsf]; exact hn)]
          rw [if_neg hn] at hm'
          exact hin _ _ m.db rfl h2 hm'
      | remove k held =>
        have hs : w.step C d (.remove k held) = w.remove d h0 k held := by unfold World.step; rw [hg]
        rw [hs]
        subst h0e
        have hm' : mvStep m (.remove k held) = .ok m1 := hm
        unfold mvStep at hm'
        dsimp only at hm'
        unfold World.remove
        rw [remove_db]
        cases h6 : m.remove held k with
        | error e =>
          rw [h6] at hm'
          cases e with
          | panic => cases hm'
          | notFound =>
            cases hm'
            exact ⟨.inr rfl, by dsimp only [Except.map]; rw [hg]; rfl, h2, fun h hh => h3 h hh⟩
        | ok y =>
          rw [h6] at hm'
          cases hm'
          obtain ⟨v, m2⟩ := y
          dsimp only [Except.map]
          have h7 := remove_keeps h6
          refine ⟨.inl rfl, by simp [World.setMem, AMap.get_insert]; rfl, ?_, ?_⟩
          · rw [tree_setMem, tree_setTree, if_pos rfl, h7]
            exact h2.erase _
          · intro h hh
            simp [World.setMem, AMap.get_insert] at hh
            rw [← hh]
            rfl
      | clear =>
        have hs : w.step C d .clear = (.ok (), (w.setTree d []).setMem d h0.clear) := by unfold World.step; rw [hg]
        rw [hs]
        cases hm
        refine ⟨.inl rfl, by simp [World.setMem, AMap.get_insert]; rfl, ?_, ?_⟩
        · rw [tree_setMem, tree_setTree, if_pos rfl]; rfl
        · intro h hh
          simp [World.setMem, AMap.get_insert] at hh
          rw [← hh, h0e]
          rfl
      | destroy =>
        have hs : w.step C d .destroy = (.ok (), ⟨AMap.erase w.trees d, AMap.erase w.mem d⟩) := by
          unfold World.step; rw [hg]
        rw [hs]
        cases hm
        refine ⟨.inl rfl, by simp [AMap.get_erase]; rfl, ?_, ?_⟩
        · simp [World.tree, AMap.get_erase]; rfl
        · intro h hh; simp [AMap.get_erase] at hh
      | close =>
        have hs : w.step C d .close = (.ok (), { w with mem := AMap.erase w.mem d }) := by
          unfold World.step; rw [hg]
        rw [hs]
        cases hm
        refine ⟨.inl rfl, by simp [AMap.get_erase]; rfl, h2, ?_⟩
        intro h hh; simp [AMap.get_erase] at hh

theorem Alone.other {C : Codec} {w : World} {d d' : String} {o : Bool} {m : MV} (h : Alone C w d' o m)
    (hd : d ≠ d') (r : Req) : Alone C (w.step C d r).2 d' o m := by
  obtain ⟨h1, h2⟩ := step_other C w hd r
  exact ⟨by rw [h2]; exact h.open_iff, by rw [h1]; exact h.reads, by rw [h2]; exact h.mem⟩

theorem mvRun_asOp {m m' : MV} {o : Option Op} {ops : List Op}
    (h : mvRun m (match o with | some op => op :: ops | none => ops) = .ok m') :
    ∃ m1, (match o with | some op => mvStep m op | none => .ok m) = .ok m1 ∧ mvRun m1 ops = .ok m' := by
  cases o with
  | none => exact ⟨m, rfl, h⟩
  | some op =>
    dsimp only at h ⊢
    rw [mvRun] at h
    cases h1 : mvStep m op with
    | error e => rw [h1] at h; cases h
    | ok m1 => rw [h1] at h; exact ⟨m1, rfl, h⟩

/-- Each domain runs as if it were alone. -/
theorem run_alone {C : Codec} : ∀ {acts : List (String × Req)} {w : World} {o : String → Bool} {m m' : String → MV},
    Lossless C acts → (∀ d, Alone C w d (o d) (m d)) →
    (∀ d, mvRun (m d) (own d (o d) acts) = .ok (m' d)) →
    ∃ w' : World, w.run C acts = .ok w' ∧ ∀ d, Alone C w' d (openAfter d (o d) acts) (m' d)
  | [], w, o, m, m', _, ha, hm => by
    refine ⟨w, rfl, fun d => ?_⟩
    have := hm d
    rw [own, mvRun] at this
    rw [← Except.ok.inj this]
    exact ha d
  | (d, r) :: acts, w, o, m, m', hl, ha, hm => by
    have h0 := hm d
    rw [own_cons, if_pos rfl] at h0
    obtain ⟨m1, h1, h2⟩ := mvRun_asOp (o := asOp (o d) r) (by
      cases h : asOp (o d) r with
      | none => rw [h] at h0; exact h0
      | some op => rw [h] at h0; exact h0)
    obtain ⟨h3, h4⟩ := (ha d).step (fun v hv => hl d v (by rw [hv]; simp)) h1
    have hrec := run_alone (C := C) (acts := acts) (w := (w.step C d r).2)
      (o := fun d' => if d' = d then opens (o d) r else o d') (m := fun d' => if d' = d then m1 else m d')
      (m' := m') (fun d' v hv => hl d' v (List.mem_cons_of_mem _ hv))
      (fun d' => by
        by_cases hd : d' = d
        · subst hd; simp only [if_true]; exact h4
        · simp only [if_neg hd]; exact (ha d').other (fun h => hd h.symm) r)
      (fun d' => by
        by_cases hd : d' = d
        · subst hd; simp only [if_true]; exact h2
        · simp only [if_neg hd]
          have := hm d'
          rw [own_cons, if_neg (fun h => hd h.symm)] at this
          exact this)
    obtain ⟨w', h5, h6⟩ := hrec
    refine ⟨w', ?_, fun d' => ?_⟩
    swap
    · have h7 := h6 d'
      have h8 : openAfter d' (o d') ((d, r) :: acts) =
          openAfter d' (if d' = d then opens (o d) r else o d') acts := by
        unfold openAfter
        rw [List.foldl_cons]
        by_cases hd : d' = d
        · subst hd; simp
        · rw [if_neg (fun h => hd h.symm), if_neg hd]
      rw [h8]
      exact h7
    unfold World.run
    rcases h7 : w.step C d r with ⟨res, w1⟩
    rw [h7] at h3 h5
    rcases h3 with h3 | h3
    · dsimp only at h3; subst h3; exact h5
    · dsimp only at h3; subst h3; exact h5

end Verif.Multiverse
