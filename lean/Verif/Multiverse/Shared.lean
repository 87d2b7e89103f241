import Verif.Multiverse.Select

/-!
# Several multiverses open in one domain

`load_from`, `/repo/multiverse/src/lib.rs:289-304`, takes a `sled::Db`, which can be cloned, so that a domain can
be opened any number of times. Each multiverse has its own memory; the tree of the database is shared. A call
touches the tree once, by one operation of `sled` on one key (`db_insert`, lib.rs:202-216, `db_remove`,
lib.rs:192-197) or on the whole tree (`clear`, `load_from`); calls on different multiverses are taken one after
the other, also those on the whole tree, which `sled` does not make atomic. `destroy` of a tree that others have
open is left out.
-/

namespace Verif.Multiverse

/-- A domain: the contents of its tree, and the multiverses open in it. -/
structure Shared where
  db : AMap (List UInt8) Block
  mem : AMap Nat MV

/-- What is done with one multiverse: a request, or it is dropped. Opening is the request `reopen`. -/
inductive HReq where
  | op (o : Op)
  | close

/-- A call, on multiverse number `h`: `load_from`, `insert`, `remove` or `clear`, lib.rs:289-462, 218-227, with the
shared tree. -/
def Shared.step (w : Shared) (h : Nat) (r : HReq) : Except MvErr Shared :=
  match r with
  | .close => .ok { w with mem := AMap.erase w.mem h }
  | .op (.reopen sf) => (loadFrom w.db sf).map (fun m => { w with mem := AMap.insert w.mem h m })
  | .op o =>
    match AMap.get w.mem h with
    | none => .ok w
    | some m => (mvStep { m with db := w.db } o).map (fun m1 => ⟨m1.db, AMap.insert w.mem h m1⟩)

/-- A list of calls. -/
def Shared.run (w : Shared) : List (Nat × HReq) → Except MvErr Shared
  | [] => .ok w
  | (h, r) :: rest =>
    match w.step h r with
    | .ok w1 => w1.run rest
    | .error e => .error e

/-! ### What should happen -/

/-- The blocks of one multiverse, with whether they are linked to their parent, and its threshold. -/
structure View where
  storeFrom : Nat
  blocks : Key → Option Bool

/-- The blocks in the database, and the views. -/
structure SharedSpec where
  saved : Key → Bool
  views : Nat → Option View

/-- Change one view. -/
def SharedSpec.setView (s : SharedSpec) (h : Nat) (v : Option View) : SharedSpec :=
  { s with views := fun i => if i = h then v else s.views i }

/-- The view of a multiverse that is opened: what is saved, linked if the parent is saved and comes before. -/
def viewOf (B : Key → Block) (sf : Nat) (saved : Key → Bool) : View :=
  ⟨sf, fun k => if saved k then some (saved (B k).parent && decide (Before (B (B k).parent) (B k))) else none⟩

/-- The effect of a call: on the view of that multiverse, and on what is saved. -/
def SharedSpec.step (B : Key → Block) (s : SharedSpec) (h : Nat) (r : HReq) : SharedSpec :=
  match r with
  | .close => s.setView h none
  | .op (.reopen sf) => s.setView h (some (viewOf B sf s.saved))
  | .op (.insert b) =>
    match s.views h with
    | none => s
    | some v =>
      if (v.blocks b.id).isSome then s
      else
        ({ s with saved := fun k => s.saved k || (decide (k = b.id) && decide (v.storeFrom ≤ b.number)) } :
          SharedSpec).setView h (some { v with blocks := upd v.blocks b.id (some (v.blocks b.parent).isSome) })
  | .op (.remove k _) =>
    match s.views h with
    | none => s
    | some v =>
      if (v.blocks k).isSome then
        ({ s with saved := fun k' => s.saved k' && !decide (k' = k) } : SharedSpec).setView h
          (some { v with blocks := unl B v.blocks k })
      else s
  | .op .clear =>
    match s.views h with
    | none => s
    | some v => ({ s with saved := fun _ => false } : SharedSpec).setView h (some { v with blocks := fun _ => none })

/-- The effect of a list of calls. -/
def SharedSpec.run (B : Key → Block) (s : SharedSpec) (acts : List (Nat × HReq)) : SharedSpec :=
  acts.foldl (fun s a => s.step B a.1 a.2) s

/-- Nothing is saved and nothing open. -/
def SharedSpec.none : SharedSpec := ⟨fun _ => false, fun _ => .none⟩

/-- No multiverse is given again a block that it has and would save, after another one has removed the block from
the database. -/
def Unrenewed (B : Key → Block) : SharedSpec → List (Nat × HReq) → Prop
  | _, [] => True
  | s, (h, r) :: rest =>
    (∀ b v, r = .op (.insert b) → s.views h = some v → (v.blocks b.id).isSome → v.storeFrom ≤ b.number →
      s.saved b.id = true) ∧ Unrenewed B (s.step B h r) rest

/-! ### Proofs -/

variable {B : Key → Block}

/-- A multiverse has the blocks of a view. -/
structure Sees (B : Key → Block) (m : MV) (v : View) : Prop where
  mem : Mem B m v.blocks
  from_ : m.storeFrom = v.storeFrom
  num : ∀ k, (v.blocks k).isSome → (B k).number < 2 ^ 64

/-- The invariant: each multiverse has its view; the database is that of a multiverse with the saved blocks. -/
structure SharedRel (B : Key → Block) (w : Shared) (s : SharedSpec) : Prop where
  open_ : ∀ h, (AMap.get w.mem h).isSome = (s.views h).isSome
  sees : ∀ h m v, AMap.get w.mem h = some m → s.views h = some v → Sees B m v
  disk : ∃ q S, Rel B q S ∧ q.storeFrom = 0 ∧ q.db = w.db ∧ ∀ k, s.saved k = (S k).isSome

theorem Sees.withDb {m : MV} {v : View} (h : Sees B m v) (x : AMap (List UInt8) Block) :
    Sees B { m with db := x } v := ⟨h.mem.congr rfl rfl rfl rfl rfl, h.from_, h.num⟩

/-- A multiverse with a view is one that never saves. -/
theorem Sees.rel {m : MV} {v : View} (h : Sees B m v) :
    Rel B { m with db := [], storeFrom := 2 ^ 64 } (fun k => (v.blocks k).map (fun l => ⟨l, false⟩)) where
  mem := by
    have e : (fun k => ((v.blocks k).map (fun l => (⟨l, false⟩ : Stored))).map Stored.linked) = v.blocks := by
      funext k
      cases v.blocks k <;> rfl
    rw [e]
    exact h.mem.congr rfl rfl rfl rfl rfl
  num := by
    intro k b hb
    obtain ⟨l, hl, _⟩ := Option.map_eq_some_iff.1 hb
    exact h.num k (by rw [hl]; rfl)
  dbNodup := by simp [AMap.keys]
  db := by
    intro kb w
    constructor
    · intro hh; cases hh
    · rintro ⟨k, b, h1, h2, _⟩
      obtain ⟨l, _, rfl⟩ := Option.map_eq_some_iff.1 h1
      cases h2
  unsaved := by
    intro k b hb _
    obtain ⟨l, hl, _⟩ := Option.map_eq_some_iff.1 hb
    exact h.num k (by rw [hl]; rfl)

/-- The database is not touched, one view changes. -/
theorem SharedRel.setView {w : Shared} {s : SharedSpec} (h : SharedRel B w s) {i : Nat} {m : MV} {v : View}
    (hv : Sees B m v) {db : AMap (List UInt8) Block} {saved : Key → Bool}
    (hd : ∃ q S, Rel B q S ∧ q.storeFrom = 0 ∧ q.db = db ∧ ∀ k, saved k = (S k).isSome) :
    SharedRel B ⟨db, AMap.insert w.mem i m⟩ (SharedSpec.setView { s with saved := saved } i (some v)) where
  open_ := by
    intro j
    show (AMap.get (AMap.insert w.mem i m) j).isSome = (if j = i then some v else s.views j).isSome
    rw [AMap.get_insert]
    by_cases hj : j = i
    · rw [if_pos hj.symm, if_pos hj]; rfl
    · rw [if_neg (fun h => hj h.symm), if_neg hj, h.open_]
  sees := by
    intro j m' v' h1 h2
    have h1 : AMap.get (AMap.insert w.mem i m) j = some m' := h1
    have h2 : (if j = i then some v else s.views j) = some v' := h2
    rw [AMap.get_insert] at h1
    by_cases hj : j = i
    · rw [if_pos hj.symm] at h1
      rw [if_pos hj] at h2
      cases h1; cases h2
      exact hv
    · rw [if_neg (fun h => hj h.symm)] at h1
      rw [if_neg hj] at h2
      exact h.sees j m' v' h1 h2
  disk := hd

theorem Rel.all_saved {q : MV} {S : Tree} (h : Rel B q S) (h0 : q.storeFrom = 0) {k : Key} {b : Stored}
    (hb : S k = some b) : b.saved = true := by
  cases hh : b.saved with
  | true => rfl
  | false =>
    have := h.unsaved k b hb hh
    omega

theorem Rel.isSaved_eq {q : MV} {S : Tree} (h : Rel B q S) (h0 : q.storeFrom = 0) (k : Key) :
    isSaved S k = (S k).isSome := by
  unfold isSaved
  cases hk : S k with
  | none => rfl
  | some b => simpa using h.all_saved h0 hk

theorem erase_absent {α β : Type} [DecidableEq α] {l : AMap α β} {k : α} (h : AMap.get l k = none) :
    AMap.erase l k = l := by
  have := (AMap.get_eq_none_iff (m := l) (k := k)).1 h
  unfold AMap.erase
  rw [List.filter_eq_self]
  intro x hx
  simp only [ne_eq, decide_not, Bool.not_eq_eq_eq_not, Bool.not_true, decide_eq_false_iff_not]
  rintro rfl
  exact this (List.mem_map.2 ⟨x, hx, rfl⟩)

/-- What is saved when one more block is written. -/
theorem disk_insert {q : MV} {S : Tree} (hr : Rel B q S) (h0 : q.storeFrom = 0) {b : Block} (hB : b = B b.id)
    (hn : b.number < 2 ^ 64) :
    ∃ q' S', Rel B q' S' ∧ q'.storeFrom = 0 ∧ q'.db = AMap.insert q.db (mkKey b.number b.id) b ∧
      ∀ k, (S' k).isSome = ((S k).isSome || decide (k = b.id)) := by
  obtain ⟨q', h1, h2, h3⟩ := hr.insert hB hn
  refine ⟨q', _, h2, h3.trans h0, ?_, fun k => ?_⟩
  · unfold MV.insert MV.dbInsert at h1
    have hle : q.storeFrom ≤ b.number := by rw [h0]; exact Nat.zero_le _
    simp only [if_pos hle] at h1
    split at h1
    · cases h1; rfl
    · obtain ⟨m', h4, _, h5, _⟩ := insertMem_spec (B := B) (v := b) (L := fun k => (S k).map Stored.linked)
        (m := { q with db := AMap.insert q.db (mkKey b.number b.id) b })
        (hr.mem.congr rfl rfl rfl rfl rfl) hB (by
          rename_i hh
          cases hS : S b.id with
          | none => rfl
          | some x =>
            exfalso
            apply hh
            have hsv := hr.all_saved h0 hS
            have hg : AMap.get q.db (mkKey b.number b.id) = some b :=
              (hr.db _ _).2 ⟨b.id, x, hS, hsv, by rw [← hB], hB⟩
            refine ⟨by rw [hg]; rfl, ?_⟩
            show (AMap.get q.all b.id).isSome = true
            rw [hr.get_all, hS]; rfl)
      have h6 : Except.ok m' = Except.ok q' := h4.symm.trans h1
      cases h6
      exact h5
  · unfold specInsert
    by_cases hs : (S b.id).isSome
    · rw [if_pos hs]
      by_cases hk : k = b.id
      · rw [hk, hs]; rfl
      · simp [hk]
    · rw [if_neg hs]
      by_cases hk : k = b.id
      · simp [hk]
      · simp [hk]

/-- What is saved when a block is erased. -/
theorem disk_remove {q : MV} {S : Tree} (hr : Rel B q S) (h0 : q.storeFrom = 0) (k : Key)
    (hid : (B k).number < 2 ^ 64) :
    ∃ q' S', Rel B q' S' ∧ q'.storeFrom = 0 ∧ q'.db = AMap.erase q.db (mkKey (B k).number k) ∧
      ∀ k', (S' k').isSome = ((S k').isSome && !decide (k' = k)) := by
  by_cases hk : (S k).isSome
  · have hc : Calm q (fun _ => false) k := by
      intro a e r a' e' _ _ hf
      cases hf
    obtain ⟨q', h1, h2, h3⟩ := hr.remove hc hk
    obtain ⟨q2, h4, _, h5, _⟩ := remove_spec hr.mem hc (by simpa using hk)
    rw [h1] at h4
    cases h4
    refine ⟨q', _, h2, h3.trans h0, h5, fun k' => ?_⟩
    unfold specRemove
    by_cases hkk : k' = k
    · simp [hkk]
    · rw [if_neg hkk]
      split <;> simp [hkk]
  · refine ⟨q, S, hr, h0, (erase_absent ?_).symm, fun k' => ?_⟩
    · cases hg : AMap.get q.db (mkKey (B k).number k) with
      | none => rfl
      | some x =>
        exfalso
        obtain ⟨k2, b, h1, h2, h3, _⟩ := (hr.db _ _).1 hg
        have := (mkKey_inj hid (hr.num k2 b h1) h3).2
        rw [this, h1] at hk
        exact hk rfl
    · by_cases hkk : k' = k
      · rw [hkk]
        cases hs : S k with
        | none => rfl
        | some x => rw [hs] at hk; exact absurd rfl hk
      · simp [hkk]

/-- One call. -/
theorem SharedRel.step {w : Shared} {s : SharedSpec} (h : SharedRel B w s) (i : Nat) (r : HReq)
    (hok : ∀ o, r = .op o → OpOk B o) (hheld : ∀ k held, r = .op (.remove k held) → held = fun _ => false)
    (hun : ∀ b v, r = .op (.insert b) → s.views i = some v → (v.blocks b.id).isSome → v.storeFrom ≤ b.number →
      s.saved b.id = true) :
    ∃ w', w.step i r = .ok w' ∧ SharedRel B w' (s.step B i r) := by
  obtain ⟨q, S, hr, h0, hdb, hsv⟩ := h.disk
  have hopen := h.open_ i
  cases r with
  | close =>
    refine ⟨_, rfl, ⟨?_, ?_, h.disk⟩⟩
    · intro j
      show (AMap.get (AMap.erase w.mem i) j).isSome = (if j = i then none else s.views j).isSome
      rw [AMap.get_erase]
      by_cases hj : j = i
      · rw [if_pos hj.symm, if_pos hj]; rfl
      · rw [if_neg (fun h => hj h.symm), if_neg hj, h.open_]
    · intro j m v h1 h2
      have h1 : AMap.get (AMap.erase w.mem i) j = some m := h1
      have h2 : (if j = i then none else s.views j) = some v := h2
      rw [AMap.get_erase] at h1
      by_cases hj : j = i
      · rw [if_pos hj] at h2; cases h2
      · rw [if_neg (fun h => hj h.symm)] at h1
        rw [if_neg hj] at h2
        exact h.sees j m v h1 h2
  | op o =>
    cases o with
    | reopen sf =>
      obtain ⟨m, h1, h2, h3⟩ := hr.reopen sf
      rw [hdb] at h1
      refine ⟨_, by simp only [Shared.step, h1]; rfl, ?_⟩
      have hv : Sees B m (viewOf B sf s.saved) := by
        refine ⟨?_, h3, fun k hk => ?_⟩
        · have e : (fun k => (specReopen B S k).map Stored.linked) = (viewOf B sf s.saved).blocks := by
            funext k
            unfold specReopen viewOf
            dsimp only
            rw [hr.isSaved_eq h0, hr.isSaved_eq h0, hsv, hsv]
            split <;> rfl
          rw [← e]
          exact h2.mem
        · unfold viewOf at hk
          dsimp only at hk
          rw [hsv] at hk
          cases hS : S k with
          | none => rw [hS] at hk; cases hk
          | some b => exact hr.num k b hS
      exact h.setView hv h.disk
    | insert b =>
      obtain ⟨hB, hn⟩ := hok _ rfl
      cases hm : AMap.get w.mem i with
      | none =>
        rw [hm] at hopen
        have hv : s.views i = none := by simpa using hopen.symm
        exact ⟨w, by simp only [Shared.step, hm], by simp only [SharedSpec.step, hv]; exact h⟩
      | some m =>
        rw [hm] at hopen
        obtain ⟨v, hv⟩ := Option.isSome_iff_exists.1 hopen.symm
        have hsee := (h.sees i m v hm hv).withDb w.db
        have hall : (AMap.get m.all b.id).isSome = (v.blocks b.id).isSome := hsee.mem.dom b.id
        simp only [Shared.step, hm, SharedSpec.step, hv, mvStep]
        by_cases hhas : (v.blocks b.id).isSome
        · -- the multiverse has the block
          rw [if_pos hhas]
          have hfresh : (MV.dbInsert { m with db := w.db } b).1 = false := by
            unfold MV.dbInsert
            split
            · rename_i hle
              have hle : m.storeFrom ≤ b.number := hle
              have hs := hun b v rfl hv hhas (by rw [← hsee.from_]; exact hle)
              rw [hsv] at hs
              obtain ⟨x, hx⟩ := Option.isSome_iff_exists.1 hs
              have hg : AMap.get w.db (mkKey b.number b.id) = some b := by
                rw [← hdb]
                exact (hr.db _ _).2 ⟨b.id, x, hx, hr.all_saved h0 hx, by rw [← hB], hB⟩
              show (AMap.get w.db (mkKey b.number b.id)).isNone = false
              rw [hg]; rfl
            · rfl
          have hins : MV.insert { m with db := w.db } b = .ok (MV.dbInsert { m with db := w.db } b).2 := by
            unfold MV.insert
            rw [if_pos ⟨hfresh, by
              show (AMap.get m.all b.id).isSome = true
              rw [hall]; exact hhas⟩]
          rw [hins]
          refine ⟨_, rfl, ?_⟩
          have hsee' : Sees B (MV.dbInsert { m with db := w.db } b).2 v := by
            unfold MV.dbInsert
            split
            · exact (h.sees i m v hm hv).withDb _
            · exact hsee
          have hs' : SharedSpec.setView { s with saved := s.saved } i (some v) = s := by
            unfold SharedSpec.setView
            congr 1
            funext j
            split
            · rename_i hj; rw [hj, hv]
            · rfl
          rw [← hs']
          refine h.setView hsee' ?_
          unfold MV.dbInsert
          split
          · rename_i hle
            have hle : m.storeFrom ≤ b.number := hle
            have hs := hun b v rfl hv hhas (by rw [← hsee.from_]; exact hle)
            obtain ⟨q', S', h1, h2, h3, h4⟩ := disk_insert hr h0 hB hn
            refine ⟨q', S', h1, h2, by rw [h3, hdb], fun k => ?_⟩
            rw [h4, ← hsv]
            by_cases hk : k = b.id
            · rw [hk, hs]; rfl
            · simp [hk]
          · exact ⟨q, S, hr, h0, hdb, hsv⟩
        · -- the block is new to the multiverse
          rw [if_neg hhas]
          have hnone : v.blocks b.id = none := by simpa using hhas
          have hsee' : Mem B (MV.dbInsert { m with db := w.db } b).2 v.blocks := by
            unfold MV.dbInsert
            split
            · exact ((h.sees i m v hm hv).withDb _).mem
            · exact hsee.mem
          have hsf : (MV.dbInsert { m with db := w.db } b).2.storeFrom = v.storeFrom := by
            rw [← hsee.from_]
            unfold MV.dbInsert
            split <;> rfl
          obtain ⟨m1, h1, h2, h3, h4⟩ := insertMem_spec hsee' hB hnone
          have hins : MV.insert { m with db := w.db } b = .ok m1 := by
            unfold MV.insert
            rw [if_neg]
            · exact h1
            · rintro ⟨_, hh⟩
              have hh : (AMap.get m.all b.id).isSome = true := hh
              rw [hall] at hh
              exact hhas hh
          rw [hins]
          refine ⟨_, rfl, h.setView (v := ⟨v.storeFrom, upd v.blocks b.id (some (v.blocks b.parent).isSome)⟩)
            ⟨h2, h4.trans hsf, fun k hk => ?_⟩ ?_⟩
          · dsimp only at hk
            unfold upd at hk
            split at hk
            · rename_i he
              rw [he, ← hB]; exact hn
            · exact hsee.num k hk
          · rw [h3]
            unfold MV.dbInsert
            by_cases hle : v.storeFrom ≤ b.number
            · have hle' : ({ m with db := w.db } : MV).storeFrom ≤ b.number := by rw [hsee.from_]; exact hle
              rw [if_pos hle']
              obtain ⟨q', S', h5, h6, h7, h8⟩ := disk_insert hr h0 hB hn
              refine ⟨q', S', h5, h6, by rw [h7, hdb], fun k => ?_⟩
              rw [h8, hsv]
              simp [hle]
            · have hle' : ¬ ({ m with db := w.db } : MV).storeFrom ≤ b.number := by rw [hsee.from_]; exact hle
              rw [if_neg hle']
              refine ⟨q, S, hr, h0, hdb, fun k => ?_⟩
              rw [← hsv]
              simp [hle]
    | remove k held =>
      have hh := hheld k held rfl
      subst hh
      cases hm : AMap.get w.mem i with
      | none =>
        rw [hm] at hopen
        have hv : s.views i = none := by simpa using hopen.symm
        exact ⟨w, by simp only [Shared.step, hm], by simp only [SharedSpec.step, hv]; exact h⟩
      | some m =>
        rw [hm] at hopen
        obtain ⟨v, hv⟩ := Option.isSome_iff_exists.1 hopen.symm
        have hsee := (h.sees i m v hm hv).withDb w.db
        simp only [Shared.step, hm, SharedSpec.step, hv, mvStep]
        by_cases hhas : (v.blocks k).isSome
        · rw [if_pos hhas]
          obtain ⟨m1, h1, h2, h3, h4⟩ := remove_spec (held := fun _ => false) hsee.mem (by
            intro a e r a' e' _ _ hf
            cases hf) hhas
          rw [h1]
          refine ⟨_, rfl, h.setView (v := ⟨v.storeFrom, unl B v.blocks k⟩) ⟨h2, h4.trans hsee.from_, fun k' hk' => ?_⟩ ?_⟩
          · dsimp only at hk'
            unfold unl at hk'
            split at hk'
            · cases hk'
            · split at hk'
              · rw [Option.isSome_map] at hk'
                exact hsee.num k' hk'
              · exact hsee.num k' hk'
          · obtain ⟨q', S', h5, h6, h7, h8⟩ := disk_remove hr h0 k (hsee.num k hhas)
            refine ⟨q', S', h5, h6, ?_, fun k' => by rw [h8, hsv]⟩
            rw [h3, h7, hdb]
        · rw [if_neg hhas]
          have hnone : AMap.get m.all k = none := by
            have : (AMap.get m.all k).isSome = (v.blocks k).isSome := hsee.mem.dom k
            rw [Bool.eq_false_iff.2 hhas] at this
            simpa using this
          have hrem : MV.remove { m with db := w.db } (fun _ => false) k = .error .notFound := by
            unfold MV.remove
            dsimp only
            rw [hnone]
          rw [hrem]
          refine ⟨_, rfl, ?_⟩
          have hs' : SharedSpec.setView { s with saved := s.saved } i (some v) = s := by
            unfold SharedSpec.setView
            congr 1
            funext j
            split
            · rename_i hj; rw [hj, hv]
            · rfl
          rw [← hs']
          exact h.setView hsee h.disk
    | clear =>
      cases hm : AMap.get w.mem i with
      | none =>
        rw [hm] at hopen
        have hv : s.views i = none := by simpa using hopen.symm
        exact ⟨w, by simp only [Shared.step, hm], by simp only [SharedSpec.step, hv]; exact h⟩
      | some m =>
        rw [hm] at hopen
        obtain ⟨v, hv⟩ := Option.isSome_iff_exists.1 hopen.symm
        have hsee := h.sees i m v hm hv
        simp only [Shared.step, hm, SharedSpec.step, hv, mvStep]
        refine ⟨_, rfl, h.setView (v := ⟨v.storeFrom, fun _ => none⟩) ⟨Mem.clear B _, hsee.from_, fun k hk => by cases hk⟩ ?_⟩
        exact ⟨q.clear, _, Rel.clear B q, h0, rfl, fun _ => rfl⟩

/-- A list of calls. -/
theorem SharedRel.run : ∀ {acts : List (Nat × HReq)} {w : Shared} {s : SharedSpec}, SharedRel B w s →
    (∀ i o, (i, HReq.op o) ∈ acts → OpOk B o) → (∀ i k held, (i, HReq.op (.remove k held)) ∈ acts → held = fun _ => false) →
    Unrenewed B s acts → ∃ w', w.run acts = .ok w' ∧ SharedRel B w' (s.run B acts)
  | [], w, _, h, _, _, _ => ⟨w, rfl, h⟩
  | (i, r) :: rest, w, s, h, h1, h2, h3 => by
    obtain ⟨w1, h4, h5⟩ := h.step i r (fun o he => h1 i o (by rw [he]; simp))
      (fun k held he => h2 i k held (by rw [he]; simp)) (fun b v he => h3.1 b v he)
    obtain ⟨w2, h6, h7⟩ := SharedRel.run h5 (fun j o hm => h1 j o (List.mem_cons_of_mem _ hm))
      (fun j k held hm => h2 j k held (List.mem_cons_of_mem _ hm)) h3.2
    exact ⟨w2, by rw [Shared.run, h4]; exact h6, h7⟩

theorem SharedRel.nothing (B : Key → Block) : SharedRel B ⟨[], []⟩ SharedSpec.none where
  open_ := fun _ => rfl
  sees := by intro h m v h1; cases h1
  disk := ⟨MV.empty [] 0, _, Rel.empty B 0, rfl, rfl, fun _ => rfl⟩

end Verif.Multiverse
