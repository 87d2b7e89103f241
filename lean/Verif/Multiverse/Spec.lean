import Verif.Multiverse.Lemmas
import Verif.Multiverse.Keys

/-!
# What a multiverse should do

The specification keeps for each stored block whether it is linked to its parent and whether it is saved in
the database. `B` gives the block with a given identifier.
-/

namespace Verif.Multiverse

/-- What is known of a stored block. -/
structure Stored where
  /-- linked to its parent: the parent was stored when the block came, and is stored since. -/
  linked : Bool
  /-- is in the database. -/
  saved : Bool
deriving DecidableEq

/-- The stored blocks. -/
abbrev Tree := Key → Option Stored

/-- The requests. The user may keep references to allocations during a removal. -/
inductive Op where
  | insert (v : Block)
  | remove (k : Key) (held : Nat → Bool)
  | clear
  | reopen (storeFrom : Nat)

/-- Order of blocks by number and identifier. -/
def Before (b c : Block) : Prop := b.number < c.number ∨ b.number = c.number ∧ b.id < c.id

instance (b c : Block) : Decidable (Before b c) := by unfold Before; infer_instance

/-- A block that is not stored is stored, linked if its parent is stored, saved from `storeFrom` on. -/
def specInsert (storeFrom : Nat) (S : Tree) (v : Block) : Tree :=
  if (S v.id).isSome then S
  else fun k => if k = v.id then some ⟨(S v.parent).isSome, decide (storeFrom ≤ v.number)⟩ else S k

/-- The block goes and its children are no longer linked. -/
def specRemove (B : Key → Block) (S : Tree) (key : Key) : Tree := fun k =>
  if k = key then none
  else if (B k).parent = key then (S k).map (fun b => { b with linked := false }) else S k

/-- Is the block stored and saved? -/
def isSaved (S : Tree) (k : Key) : Bool := ((S k).map Stored.saved).getD false

/-- The saved blocks are stored again, linked if the parent is saved and comes before. -/
def specReopen (B : Key → Block) (S : Tree) : Tree := fun k =>
  if isSaved S k then some ⟨isSaved S (B k).parent && decide (Before (B (B k).parent) (B k)), true⟩ else none

/-- The effect of a request. -/
def specStep (B : Key → Block) (s : Nat × Tree) : Op → Nat × Tree
  | .insert v => (s.1, specInsert s.1 s.2 v)
  | .remove k _ => (s.1, specRemove B s.2 k)
  | .clear => (s.1, fun _ => none)
  | .reopen sf => (sf, specReopen B s.2)

/-- The effect of a list of requests. -/
def specRun (B : Key → Block) (s : Nat × Tree) (ops : List Op) : Nat × Tree := ops.foldl (specStep B) s

/-- The `d`-th ancestor over links. -/
def specAncestor (B : Key → Block) (S : Tree) : Nat → Key → Option Key
  | 0, k => some k
  | d + 1, k => if ((S k).map Stored.linked).getD false then specAncestor B S d (B k).parent else none

/-! ### Histories of the model -/

/-- One request; removing a block that is not stored changes nothing. -/
def mvStep (m : MV) : Op → Except MvErr MV
  | .insert v => m.insert v
  | .remove k held =>
    match m.remove held k with
    | .ok r => .ok r.2
    | .error .notFound => .ok m
    | .error .panic => .error .panic
  | .clear => .ok m.clear
  | .reopen sf => loadFrom m.db sf

/-- A list of requests. -/
def mvRun (m : MV) : List Op → Except MvErr MV
  | [] => .ok m
  | op :: ops =>
    match mvStep m op with
    | .ok m1 => mvRun m1 ops
    | .error e => .error e

/-- Identifiers determine blocks, and numbers are 64-bit. -/
def OpOk (B : Key → Block) : Op → Prop
  | .insert v => v = B v.id ∧ v.number < 2 ^ 64
  | _ => True

/-- Nobody holds, while a block is removed, a reference to an earlier allocation of its parent when the
parent was removed and stored again. -/
def Fair : MV → List Op → Prop
  | _, [] => True
  | m, op :: ops => (∀ k held, op = .remove k held → Calm m held k) ∧
    ∀ m', mvStep m op = .ok m' → Fair m' ops

/-- Nobody holds references during removals. -/
def NoHeld (ops : List Op) : Prop := ∀ k held, Op.remove k held ∈ ops → held = fun _ => false

theorem fair_of_noHeld : ∀ {ops : List Op} {m : MV}, NoHeld ops → Fair m ops
  | [], _, _ => trivial
  | op :: ops, m, h => by
    refine ⟨fun k held he => ?_, fun m' _ => fair_of_noHeld (fun k held hm => h k held (List.mem_cons_of_mem _ hm))⟩
    have := h k held (by rw [he]; simp)
    subst this
    intro a e r a' e' _ _ hf
    cases hf

/-- The refinement relation. -/
structure Rel (B : Key → Block) (m : MV) (S : Tree) : Prop where
  mem : Mem B m (fun k => (S k).map Stored.linked)
  num : ∀ k b, S k = some b → (B k).number < 2 ^ 64
  dbNodup : m.db.keys.Nodup
  db : ∀ kb v, AMap.get m.db kb = some v ↔
    ∃ k b, S k = some b ∧ b.saved = true ∧ kb = mkKey (B k).number k ∧ v = B k
  unsaved : ∀ k b, S k = some b → b.saved = false → (B k).number < m.storeFrom

theorem Mem.congr {B : Key → Block} {m m' : MV} {L : Key → Option Bool} (h : Mem B m L)
    (h1 : m'.all = m.all) (h2 : m'.ordered = m.ordered) (h3 : m'.tips = m.tips) (h4 : m'.roots = m.roots)
    (h5 : m'.nextArc = m.nextArc) : Mem B m' L := by
  obtain ⟨db', all', ord', tips', roots', sf', na'⟩ := m'
  obtain ⟨db, all, ord, tips, roots, sf, na⟩ := m
  simp only at h1 h2 h3 h4 h5
  subst h1 h2 h3 h4 h5
  exact ⟨h.nodup, h.dom, h.val, h.arcs, h.parent, h.weakKey, h.linked, h.children, h.childNodup, h.tips,
    h.roots, h.ordSorted, h.ordMem, h.ordNe⟩

variable {B : Key → Block} {m : MV} {S : Tree}

theorem Rel.empty (B : Key → Block) (sf : Nat) : Rel B (MV.empty [] sf) (fun _ => none) where
  mem := Mem.empty B [] sf
  num := by simp
  dbNodup := by simp [MV.empty, AMap.keys]
  db := by simp [MV.empty]
  unsaved := by simp

theorem Rel.clear (B : Key → Block) (m : MV) : Rel B m.clear (fun _ => none) where
  mem := Mem.clear B m
  num := by simp
  dbNodup := by simp [MV.clear, AMap.keys]
  db := by simp [MV.clear]
  unsaved := by simp

theorem Rel.stored_id (h : Rel B m S) {k : Key} (hk : (S k).isSome) : (B k).id = k := by
  have hd := h.mem.dom k
  simp only [Option.isSome_map, hk] at hd
  obtain ⟨x, hx⟩ := Option.isSome_iff_exists.1 hd
  exact (h.mem.val k x.1 x.2 hx).2.1

theorem Rel.get_all (h : Rel B m S) (k : Key) : (AMap.get m.all k).isSome = (S k).isSome := by
  have hd := h.mem.dom k
  simpa only [Option.isSome_map] using hd

theorem Rel.db_none (h : Rel B m S) {v : Block} (hn : v.number < 2 ^ 64)
    (hk : S v.id = none) : AMap.get m.db (mkKey v.number v.id) = none := by
  cases hg : AMap.get m.db (mkKey v.number v.id) with
  | none => rfl
  | some w =>
    obtain ⟨k, b, h1, _, h3, _⟩ := (h.db _ _).1 hg
    have := (mkKey_inj hn (h.num k b h1) h3).2
    rw [this, h1] at hk
    cases hk

/-- Insertion of a stored block. -/
theorem insert_same (h : Rel B m S) {v : Block} (hB : v = B v.id) (hk : (S v.id).isSome) :
    ∃ m', m.insert v = .ok m' ∧ m' = { m with db := m'.db } ∧
      (∀ kb, AMap.get m'.db kb = AMap.get m.db kb) ∧ m'.db.keys = m.db.keys := by
  obtain ⟨b, hb⟩ := Option.isSome_iff_exists.1 hk
  have hsome : (AMap.get m.all v.id).isSome := by rw [h.get_all]; exact hk
  unfold MV.insert MV.dbInsert
  by_cases hs : m.storeFrom ≤ v.number
  · have hsv : b.saved = true := by
      cases hh : b.saved with
      | true => rfl
      | false =>
        have := h.unsaved _ _ hb hh
        rw [← hB] at this
        omega
    have hg : AMap.get m.db (mkKey v.number v.id) = some v :=
      (h.db _ _).2 ⟨v.id, b, hb, hsv, by rw [← hB], hB⟩
    simp only [hs, if_true, hg, Option.isNone_some, hsome, and_self]
    refine ⟨_, rfl, rfl, fun kb => ?_, ?_⟩
    · simp only [AMap.get_insert]
      split
      · rename_i he
        rw [← he, hg]
      · rfl
    · rw [AMap.keys_insert, if_pos]
      by_contra hm
      rw [← AMap.get_eq_none_iff, hg] at hm
      cases hm
  · simp only [hs, if_false, hsome, and_self, if_true]
    exact ⟨_, rfl, rfl, fun _ => rfl, rfl⟩

theorem Rel.insert (h : Rel B m S) {v : Block} (hB : v = B v.id) (hn : v.number < 2 ^ 64) :
    ∃ m', m.insert v = .ok m' ∧ Rel B m' (specInsert m.storeFrom S v) ∧ m'.storeFrom = m.storeFrom := by
  unfold specInsert
  by_cases hk : (S v.id).isSome
  · obtain ⟨m', h1, h2, h3, h4⟩ := insert_same h hB hk
    rw [if_pos hk]
    refine ⟨m', h1, ?_, by rw [h2]⟩
    rw [h2]
    exact ⟨h.mem.congr rfl rfl rfl rfl rfl, h.num, by rw [h4]; exact h.dbNodup,
      fun kb w => by rw [h3]; exact h.db kb w, h.unsaved⟩
  · rw [if_neg hk]
    have hk' : S v.id = none := by simpa using hk
    have hnone : ¬ (AMap.get m.all v.id).isSome := by rw [h.get_all]; exact hk
    have hdbn := h.db_none hn hk'
    have hB1 : (B v.id).number = v.number := by rw [← hB]
    have hins : m.insert v = MV.insertMem (m.dbInsert v).2 v := by
      unfold MV.insert
      rw [if_neg]
      exact fun hh => hnone hh.2
    have hmem : Mem B (m.dbInsert v).2 (fun k => (S k).map Stored.linked) := by
      unfold MV.dbInsert
      split <;> exact h.mem.congr rfl rfl rfl rfl rfl
    have hsf : (m.dbInsert v).2.storeFrom = m.storeFrom := by
      unfold MV.dbInsert
      split <;> rfl
    obtain ⟨m', h1, h2, h3, h4⟩ := insertMem_spec hmem hB (by simp [hk'])
    refine ⟨m', hins.trans h1, ?_, h4.trans hsf⟩
    constructor
    · have e : (fun k => ((if k = v.id then some (⟨(S v.parent).isSome, decide (m.storeFrom ≤ v.number)⟩ : Stored)
          else S k)).map Stored.linked) =
          upd (fun k => (S k).map Stored.linked) v.id (some ((S v.parent).map Stored.linked).isSome) := by
        funext k
        unfold upd
        split <;> simp
      rw [e]
      exact h2
    · intro k b hb
      split at hb
      · rename_i he
        rw [he, hB1]
        exact hn
      · exact h.num k b hb
    · rw [h3]
      unfold MV.dbInsert
      split
      · exact AMap.nodup_insert h.dbNodup _ _
      · exact h.dbNodup
    · intro kb w
      rw [h3]
      unfold MV.dbInsert
      by_cases hs : m.storeFrom ≤ v.number
      · simp only [hs, if_true, AMap.get_insert]
        constructor
        · intro h5
          split at h5
          · rename_i he
            exact ⟨v.id, _, if_pos rfl, by simp, by rw [hB1, he], by rw [← Option.some.inj h5]; exact hB⟩
          · obtain ⟨k, b, h6, h7, h8, h9⟩ := (h.db _ _).1 h5
            refine ⟨k, b, ?_, h7, h8, h9⟩
            rw [if_neg]
            · exact h6
            · intro he
              rw [he, hk'] at h6
              cases h6
        · rintro ⟨k, b, h6, h7, h8, h9⟩
          by_cases he : k = v.id
          · subst he
            rw [if_pos (by rw [h8, hB1]), h9, ← hB]
          · rw [if_neg he] at h6
            rw [if_neg, h.db]
            · exact ⟨k, b, h6, h7, h8, h9⟩
            · intro hh
              rw [h8] at hh
              exact he (mkKey_inj hn (h.num k b h6) hh).2.symm
      · simp only [hs, if_false]
        rw [h.db]
        constructor
        · rintro ⟨k, b, h6, h7, h8, h9⟩
          refine ⟨k, b, ?_, h7, h8, h9⟩
          rw [if_neg]
          · exact h6
          · intro he
            rw [he, hk'] at h6
            cases h6
        · rintro ⟨k, b, h6, h7, h8, h9⟩
          by_cases he : k = v.id
          · rw [if_pos he] at h6
            rw [← Option.some.inj h6] at h7
            simp at h7
          · rw [if_neg he] at h6
            exact ⟨k, b, h6, h7, h8, h9⟩
    · intro k b hb hsv
      rw [h4, hsf]
      split at hb
      · rename_i he
        rw [← Option.some.inj hb] at hsv
        simp only [decide_eq_false_iff_not] at hsv
        rw [he, hB1]
        omega
      · exact h.unsaved k b hb hsv

theorem Rel.remove (h : Rel B m S) {k : Key} {held : Nat → Bool} (hc : Calm m held k) (hk : (S k).isSome) :
    ∃ m', m.remove held k = .ok (B k, m') ∧ Rel B m' (specRemove B S k) ∧ m'.storeFrom = m.storeFrom := by
  obtain ⟨m', h1, h2, h3, h4⟩ := remove_spec h.mem hc (by simpa using hk)
  refine ⟨m', h1, ?_, h4⟩
  have hold : ∀ {k' b}, specRemove B S k k' = some b →
      k' ≠ k ∧ ∃ b0, S k' = some b0 ∧ b0.saved = b.saved := by
    intro k' b hb
    unfold specRemove at hb
    split at hb
    · cases hb
    · rename_i hne
      refine ⟨hne, ?_⟩
      split at hb
      · obtain ⟨b0, h5, rfl⟩ := Option.map_eq_some_iff.1 hb
        exact ⟨b0, h5, rfl⟩
      · exact ⟨b, hb, rfl⟩
  constructor
  · have e : (fun k' => (specRemove B S k k').map Stored.linked) =
        unl B (fun k => (S k).map Stored.linked) k := by
      funext k'
      unfold specRemove unl
      split
      · rfl
      · split
        · simp only [Option.map_map]
          rfl
        · rfl
    rw [e]
    exact h2
  · intro k' b hb
    obtain ⟨_, b0, h5, _⟩ := hold hb
    exact h.num k' b0 h5
  · rw [h3]
    exact AMap.nodup_erase h.dbNodup _
  · intro kb w
    rw [h3, AMap.get_erase]
    obtain ⟨bk, hbk⟩ := Option.isSome_iff_exists.1 hk
    constructor
    · intro h5
      split at h5
      · cases h5
      · rename_i hne
        obtain ⟨k', b, h6, h7, h8, h9⟩ := (h.db _ _).1 h5
        have hkk : k' ≠ k := by
          rintro rfl
          exact hne h8.symm
        by_cases hp : (B k').parent = k
        · exact ⟨k', { b with linked := false }, by simp [specRemove, hkk, hp, h6], h7, h8, h9⟩
        · exact ⟨k', b, by simp [specRemove, hkk, hp, h6], h7, h8, h9⟩
    · rintro ⟨k', b, h6, h7, h8, h9⟩
      obtain ⟨hne, b0, h10, h11⟩ := hold h6
      rw [if_neg, h.db]
      · exact ⟨k', b0, h10, by rw [h11]; exact h7, h8, h9⟩
      · intro he
        rw [h8] at he
        exact hne (mkKey_inj (h.num k bk hbk) (h.num k' b0 h10) he).2.symm
  · intro k' b hb hs
    obtain ⟨_, b0, h10, h11⟩ := hold hb
    rw [h4]
    exact h.unsaved k' b0 h10 (by rw [h11]; exact hs)

/-! ### Loading -/

/-- Links after inserting a list of blocks. -/
def loadL (L : Key → Option Bool) : List Block → Key → Option Bool
  | [] => L
  | v :: vs => loadL (upd L v.id (some (L v.parent).isSome)) vs

theorem loadL_absent : ∀ {vs : List Block} {L : Key → Option Bool} {k : Key},
    (∀ v ∈ vs, v.id ≠ k) → loadL L vs k = L k
  | [], _, _, _ => rfl
  | v :: vs, L, k, h => by
    rw [loadL, loadL_absent (fun w hw => h w (List.mem_cons_of_mem _ hw))]
    unfold upd
    rw [if_neg (fun he => h v (by simp) he.symm)]

theorem Before.asymm {a b : Block} (h : Before a b) : ¬ Before b a := by
  unfold Before at *
  rintro (h2 | ⟨h2, h3⟩)
  · omega
  · rcases h with h | ⟨_, h⟩
    · omega
    · exact List.lt_asymm h h3

theorem loadL_present : ∀ {vs : List Block} {L : Key → Option Bool} {v : Block},
    vs.Pairwise Before → vs.Pairwise (fun a b => a.id ≠ b.id) → v ∈ vs →
    loadL L vs v.id = some ((L v.parent).isSome || vs.any (fun u => u.id == v.parent && decide (Before u v)))
  | w :: vs, L, v, h1, h2, hv => by
    rw [List.pairwise_cons] at h1 h2
    rw [loadL]
    have hnot : ∀ u, Before w u → decide (Before u w) = false := fun u hu =>
      decide_eq_false hu.asymm
    rcases List.mem_cons.1 hv with rfl | hv
    · rw [loadL_absent (fun u hu he => h2.1 u hu he.symm)]
      unfold upd
      rw [if_pos rfl]
      have e : (v :: vs).any (fun u => u.id == v.parent && decide (Before u v)) = false := by
        rw [List.any_eq_false]
        intro u hu
        rcases List.mem_cons.1 hu with rfl | hu
        · simp [decide_eq_false (fun hh : Before u u => hh.asymm hh)]
        · simp [hnot u (h1.1 u hu)]
      rw [e, Bool.or_false]
    · rw [loadL_present h1.2 h2.2 hv, List.any_cons]
      congr 1
      unfold upd
      have hb := h1.1 v hv
      by_cases he : v.parent = w.id
      · rw [if_pos he, he]
        simp [hb]
      · rw [if_neg he]
        have : (w.id == v.parent) = false := by
          simp only [beq_eq_false_iff_ne]
          exact fun hh => he hh.symm
        rw [this]
        simp

theorem insertAll_spec : ∀ {vs : List Block} {m : MV} {L : Key → Option Bool}, Mem B m L →
    (∀ v ∈ vs, v = B v.id ∧ L v.id = none) → vs.Pairwise (fun a b => a.id ≠ b.id) →
    ∃ m', m.insertAll vs = .ok m' ∧ Mem B m' (loadL L vs) ∧ m'.db = m.db ∧ m'.storeFrom = m.storeFrom
  | [], m, L, h, _, _ => ⟨m, rfl, h, rfl, rfl⟩
  | v :: vs, m, L, h, hB, hne => by
    rw [List.pairwise_cons] at hne
    obtain ⟨m1, h1, h2, h3, h4⟩ := insertMem_spec h (hB v (by simp)).1 (hB v (by simp)).2
    obtain ⟨m2, h5, h6, h7, h8⟩ := insertAll_spec (vs := vs) h2 (by
      intro w hw
      refine ⟨(hB w (List.mem_cons_of_mem _ hw)).1, ?_⟩
      unfold upd
      rw [if_neg (fun he => hne.1 w hw he.symm)]
      exact (hB w (List.mem_cons_of_mem _ hw)).2) hne.2
    refine ⟨m2, ?_, h6, h7.trans h3, h8.trans h4⟩
    rw [MV.insertAll, h1]
    exact h5

theorem isSaved_iff {k : Key} : isSaved S k = true ↔ ∃ b, S k = some b ∧ b.saved = true := by
  unfold isSaved
  cases S k with
  | none => simp
  | some b => simp

theorem Rel.reopen (h : Rel B m S) (sf : Nat) :
    ∃ m', loadFrom m.db sf = .ok m' ∧ Rel B m' (specReopen B S) ∧ m'.storeFrom = sf := by
  have hmem : ∀ v, v ∈ (dbSorted m.db).map Prod.snd ↔ isSaved S v.id = true ∧ v = B v.id := by
    intro v
    simp only [List.mem_map, Prod.exists, exists_eq_right]
    constructor
    · rintro ⟨kb, hx⟩
      have hx := (dbSorted_perm m.db).mem_iff.1 hx
      obtain ⟨k, b, h1, h2, _, h4⟩ := (h.db _ _).1 (AMap.get_of_mem h.dbNodup hx)
      have hid := h.stored_id (k := k) (by rw [h1]; rfl)
      rw [h4, hid]
      exact ⟨isSaved_iff.2 ⟨b, h1, h2⟩, rfl⟩
    · rintro ⟨h1, h2⟩
      obtain ⟨b, h3, h4⟩ := isSaved_iff.1 h1
      exact ⟨_, (dbSorted_perm m.db).mem_iff.2 (AMap.mem_of_get ((h.db _ _).2 ⟨v.id, b, h3, h4, rfl, h2⟩))⟩
  have hsorted : ((dbSorted m.db).map Prod.snd).Pairwise Before := by
    rw [List.pairwise_map]
    refine (dbSorted_sorted h.dbNodup).imp_of_mem ?_
    intro x y hx hy hlt
    have hx := (dbSorted_perm m.db).mem_iff.1 hx
    have hy := (dbSorted_perm m.db).mem_iff.1 hy
    obtain ⟨k, b, h1, _, h3, h4⟩ := (h.db _ _).1 (AMap.get_of_mem h.dbNodup (k := x.1) (v := x.2) hx)
    obtain ⟨k', b', h1', _, h3', h4'⟩ := (h.db _ _).1 (AMap.get_of_mem h.dbNodup (k := y.1) (v := y.2) hy)
    rw [h3, h3', mkKey_lt (h.num k b h1) (h.num k' b' h1')] at hlt
    unfold Before
    rw [h4, h4', h.stored_id (k := k) (by rw [h1]; rfl), h.stored_id (k := k') (by rw [h1']; rfl)]
    exact hlt
  have hne : ((dbSorted m.db).map Prod.snd).Pairwise (fun a b => a.id ≠ b.id) := by
    refine hsorted.imp_of_mem ?_
    intro x y hx hy hb he
    have h1 := ((hmem x).1 hx).2
    have h2 := ((hmem y).1 hy).2
    rw [he, ← h2] at h1
    rw [h1] at hb
    exact hb.asymm hb
  obtain ⟨m', h1, h2, h3, h4⟩ := insertAll_spec (vs := (dbSorted m.db).map Prod.snd)
    (Mem.empty B m.db sf) (fun v hv => ⟨((hmem v).1 hv).2, rfl⟩) hne
  have hdb : m'.db = m.db := h3
  have hsaved : ∀ k b, specReopen B S k = some b → isSaved S k = true ∧ b.saved = true := by
    intro k b hb
    unfold specReopen at hb
    split at hb
    · rename_i hs
      rw [← Option.some.inj hb]
      exact ⟨hs, rfl⟩
    · cases hb
  refine ⟨m', h1, ⟨?_, ?_, ?_, ?_, ?_⟩, h4⟩
  · have e : (fun k => (specReopen B S k).map Stored.linked) =
        loadL (fun _ => none) ((dbSorted m.db).map Prod.snd) := by
      funext k
      unfold specReopen
      by_cases hs : isSaved S k = true
      · have hid : (B k).id = k := by
          obtain ⟨b, h5, _⟩ := isSaved_iff.1 hs
          exact h.stored_id (by rw [h5]; rfl)
        have hin : B k ∈ (dbSorted m.db).map Prod.snd := (hmem _).2 (by rw [hid]; exact ⟨hs, rfl⟩)
        rw [if_pos hs]
        conv_rhs => rw [← hid]
        rw [loadL_present hsorted hne hin]
        simp only [Option.map_some, Option.isSome_none, Bool.false_or, Option.some.injEq]
        by_cases hps : isSaved S (B k).parent = true
        · obtain ⟨b, h5, _⟩ := isSaved_iff.1 hps
          have hidp : (B (B k).parent).id = (B k).parent := h.stored_id (by rw [h5]; rfl)
          rw [hps, Bool.true_and]
          by_cases hbf : Before (B (B k).parent) (B k)
          · rw [decide_eq_true hbf]
            symm
            rw [List.any_eq_true]
            exact ⟨B (B k).parent, (hmem _).2 (by rw [hidp]; exact ⟨hps, rfl⟩), by simp [hidp, hbf]⟩
          · rw [decide_eq_false hbf]
            symm
            rw [List.any_eq_false]
            intro u hu hh
            simp only [Bool.and_eq_true, beq_iff_eq, decide_eq_true_eq] at hh
            have := ((hmem u).1 hu).2
            rw [hh.1] at this
            rw [this] at hh
            exact hbf hh.2
        · have hps' : isSaved S (B k).parent = false := by simpa using hps
          rw [hps', Bool.false_and]
          symm
          rw [List.any_eq_false]
          intro u hu hh
          simp only [Bool.and_eq_true, beq_iff_eq, decide_eq_true_eq] at hh
          have := ((hmem u).1 hu).1
          rw [hh.1] at this
          exact hps this
      · rw [if_neg hs, loadL_absent]
        · rfl
        · intro v hv he
          have := ((hmem v).1 hv).1
          rw [he] at this
          exact hs this
    rw [e]
    exact h2
  · intro k b hb
    obtain ⟨b0, h5, _⟩ := isSaved_iff.1 (hsaved k b hb).1
    exact h.num k b0 h5
  · rw [hdb]
    exact h.dbNodup
  · intro kb v
    rw [hdb, h.db]
    constructor
    · rintro ⟨k, b, h5, h6, h7⟩
      refine ⟨k, ⟨isSaved S (B k).parent && decide (Before (B (B k).parent) (B k)), true⟩, ?_, rfl, h7⟩
      unfold specReopen
      rw [if_pos (isSaved_iff.2 ⟨b, h5, h6⟩)]
    · rintro ⟨k, b, h5, _, h7⟩
      obtain ⟨b0, h8, h9⟩ := isSaved_iff.1 (hsaved k b h5).1
      exact ⟨k, b0, h8, h9, h7⟩
  · intro k b hb hs
    rw [(hsaved k b hb).2] at hs
    cases hs

/-! ### Histories -/

/-- The parent of a linked block is stored. -/
theorem Rel.parent_linked (h : Rel B m S) {k : Key} {b : Stored} (hb : S k = some b) (hl : b.linked = true) :
    (S (B k).parent).isSome := by
  have hd := h.get_all k
  rw [hb] at hd
  obtain ⟨x, hx⟩ := Option.isSome_iff_exists.1 hd
  obtain ⟨r, e', h1, h2⟩ := (h.mem.linked k x.1 x.2 hx).1 (by simp [hb, hl])
  rw [← (h.mem.parent _ _ _ _ hx h1).1, ← h.get_all, h2]
  rfl

theorem Rel.step (h : Rel B m S) {op : Op} (hok : OpOk B op)
    (hf : ∀ k held, op = .remove k held → Calm m held k) :
    ∃ m', mvStep m op = .ok m' ∧ Rel B m' (specStep B (m.storeFrom, S) op).2 ∧
      m'.storeFrom = (specStep B (m.storeFrom, S) op).1 := by
  cases op with
  | insert v => exact h.insert hok.1 hok.2
  | remove k held =>
    by_cases hk : (S k).isSome
    · obtain ⟨m', h1, h2, h3⟩ := h.remove (hf k held rfl) hk
      refine ⟨m', ?_, h2, h3⟩
      simp only [mvStep, h1]
    · have hk' : S k = none := by simpa using hk
      have hg : AMap.get m.all k = none := by
        have := h.get_all k
        rw [hk'] at this
        simpa using this
      refine ⟨m, ?_, ?_, rfl⟩
      · simp only [mvStep, MV.remove, hg]
      · have e : specRemove B S k = S := by
          funext k'
          unfold specRemove
          split
          · rename_i he
            rw [he, hk']
          · split
            · rename_i hp
              cases hb : S k' with
              | none => rfl
              | some b =>
                have hl : b.linked = false := by
                  have hlk := h.parent_linked hb
                  cases hbl : b.linked with
                  | false => rfl
                  | true =>
                    have := hlk hbl
                    rw [hp, hk'] at this
                    cases this
                obtain ⟨l, sv⟩ := b
                simp only at hl
                simp [hl]
            · rfl
        simp only [specStep, e]
        exact h
  | clear => exact ⟨_, rfl, Rel.clear B m, rfl⟩
  | reopen sf => exact h.reopen sf

/-- The model refines the specification over every history. -/
theorem Rel.run : ∀ {ops : List Op} {m : MV} {S : Tree}, Rel B m S → (∀ op ∈ ops, OpOk B op) → Fair m ops →
    ∃ m', mvRun m ops = .ok m' ∧ Rel B m' (specRun B (m.storeFrom, S) ops).2 ∧
      m'.storeFrom = (specRun B (m.storeFrom, S) ops).1
  | [], m, S, h, _, _ => ⟨m, rfl, h, rfl⟩
  | op :: ops, m, S, h, hok, hf => by
    obtain ⟨m1, h1, h2, h3⟩ := h.step (hok op (by simp)) hf.1
    obtain ⟨m2, h4, h5, h6⟩ := Rel.run h2 (fun o ho => hok o (List.mem_cons_of_mem _ ho)) (hf.2 m1 h1)
    refine ⟨m2, ?_, ?_, ?_⟩
    · simp only [mvRun, h1, h4]
    · rw [h3] at h5
      exact h5
    · rw [h3] at h6
      exact h6

/-! ### What is observed -/

/-- Nobody holds a reference to an allocation that was removed and is still the parent of a stored
block. -/
def NoStale (m : MV) (held : Nat → Bool) : Prop :=
  ∀ k a e r, AMap.get m.all k = some (a, e) → e.parent = some r → held r.arc = true →
    ∃ k' e', AMap.get m.all k' = some (r.arc, e')

theorem Rel.get (h : Rel B m S) (k : Key) : m.get k = if (S k).isSome then some (B k) else none := by
  unfold MV.get
  have hd := h.get_all k
  cases hg : AMap.get m.all k with
  | none =>
    rw [hg] at hd
    rw [← hd]
    rfl
  | some x =>
    rw [hg] at hd
    rw [← hd]
    simp [(h.mem.val k x.1 x.2 hg).1]

theorem Rel.linked_iff (h : Rel B m S) {k : Key} {a : Nat} {e : Entry}
    (hk : AMap.get m.all k = some (a, e)) : (∃ b, S k = some b ∧ b.linked = true) ↔
      ∃ r e', e.parent = some r ∧ AMap.get m.all r.key = some (r.arc, e') := by
  rw [← h.mem.linked k a e hk, Option.map_eq_some_iff]

theorem Rel.tips (h : Rel B m S) (k : Key) : k ∈ m.tips.map Ref.key ↔
    (S k).isSome ∧ ∀ c b, S c = some b → b.linked = true → (B c).parent ≠ k := by
  rw [List.mem_map]
  constructor
  · rintro ⟨r, hr, rfl⟩
    obtain ⟨e, h1, h2⟩ := (h.mem.tips r).1 hr
    refine ⟨by rw [← h.get_all, h1]; rfl, fun c b hb hl hp => ?_⟩
    have hd := h.get_all c
    rw [hb] at hd
    obtain ⟨x, hx⟩ := Option.isSome_iff_exists.1 hd
    obtain ⟨r', e', h3, h4⟩ := (h.linked_iff (k := c) (a := x.1) (e := x.2) hx).1 ⟨b, hb, hl⟩
    have h5 := (h.mem.parent _ _ _ _ hx h3).1
    rw [hp] at h5
    rw [h5, h1] at h4
    obtain ⟨h6, rfl⟩ := Prod.mk.inj (Option.some.inj h4)
    have : ⟨c, x.1⟩ ∈ e.children := (h.mem.children _ _ _ h1 _).2 ⟨x.2, hx, by rw [h3, ← h5, h6]⟩
    rw [h2] at this
    cases this
  · rintro ⟨h1, h2⟩
    have hd := h.get_all k
    rw [h1] at hd
    obtain ⟨⟨a, e⟩, hx⟩ := Option.isSome_iff_exists.1 hd
    refine ⟨⟨k, a⟩, (h.mem.tips _).2 ⟨e, hx, ?_⟩, rfl⟩
    rw [List.eq_nil_iff_forall_not_mem]
    intro r hr
    obtain ⟨e', h3, h4⟩ := (h.mem.children _ _ _ hx r).1 hr
    obtain ⟨b, h5, h6⟩ := (h.linked_iff h3).2 ⟨_, e, h4, hx⟩
    exact h2 r.key b h5 h6 (h.mem.parent _ _ _ _ h3 h4).1.symm

theorem Rel.len (h : Rel B m S) {ks : List Key} (hn : ks.Nodup) (hk : ∀ k, k ∈ ks ↔ (S k).isSome) :
    m.len = ks.length := by
  have e : m.len = m.all.keys.length := by simp [MV.len, AMap.keys]
  rw [e]
  apply List.Perm.length_eq
  rw [List.perm_ext_iff_of_nodup h.mem.nodup hn]
  intro k
  rw [hk, ← h.get_all, ← not_iff_not, ← AMap.get_eq_none_iff]
  simp

/-- The order lists exactly the stored blocks. -/
theorem Rel.ordered (h : Rel B m S) (n : Nat) (k : Key) :
    (∃ s r, (n, s) ∈ m.ordered ∧ r ∈ s ∧ r.key = k) ↔ (S k).isSome ∧ (B k).number = n := by
  constructor
  · rintro ⟨s, r, h1, h2, rfl⟩
    obtain ⟨e, h3, h4⟩ := (h.mem.ordMem n r).1 ⟨s, h1, h2⟩
    exact ⟨by rw [← h.get_all, h3]; rfl, h4⟩
  · rintro ⟨h1, h2⟩
    rw [← h.get_all] at h1
    obtain ⟨⟨a, e⟩, hx⟩ := Option.isSome_iff_exists.1 h1
    obtain ⟨s, h3, h4⟩ := (h.mem.ordMem n ⟨k, a⟩).2 ⟨e, hx, h2⟩
    exact ⟨s, _, h3, h4, rfl⟩

/-- Is the reference to a stored entry? -/
def IsStored (m : MV) (r : Ref) : Prop := ∃ e, AMap.get m.all r.key = some (r.arc, e)

theorem Rel.stored (h : Rel B m S) {r : Ref} (hr : IsStored m r) : (S r.key).isSome := by
  obtain ⟨e, he⟩ := hr
  rw [← h.get_all, he]
  rfl

theorem Rel.ancestor (h : Rel B m S) {held : Nat → Bool} (hs : NoStale m held) :
    ∀ (d : Nat) (r : Ref), IsStored m r →
      ∃ x, m.ancestor held d r = .ok x ∧ x.map Ref.key = specAncestor B S d r.key ∧
        ∀ y, x = some y → IsStored m y
  | 0, r, hr => ⟨some r, rfl, rfl, fun y hy => by rw [← Option.some.inj hy]; exact hr⟩
  | d + 1, r, hr => by
    obtain ⟨e, he⟩ := hr
    have hl := h.linked_iff he
    rw [MV.ancestor, he, specAncestor]
    cases hp : e.parent with
    | none =>
      refine ⟨none, by simp only [hp], ?_, by simp⟩
      rw [if_neg]
      · rfl
      · intro hh
        cases hS : S r.key with
        | none => rw [hS] at hh; cases hh
        | some b =>
          rw [hS] at hh
          obtain ⟨r', _, h1, _⟩ := hl.1 ⟨b, hS, by simpa using hh⟩
          rw [hp] at h1
          cases h1
    | some p =>
      have hal : alive m.refs held p.arc = true ↔ IsStored m p := by
        unfold alive
        rw [Bool.or_eq_true, List.any_eq_true]
        constructor
        · rintro (hh | ⟨x, hx, hxa⟩)
          · obtain ⟨k', e', h1⟩ := hs _ _ _ _ he hp hh
            rw [h.mem.weakKey _ _ _ _ _ _ he hp h1] at h1
            exact ⟨e', h1⟩
          · obtain ⟨e', h1⟩ := (h.mem.refs x).1 hx
            simp only [beq_iff_eq] at hxa
            rw [hxa] at h1
            rw [h.mem.weakKey _ _ _ _ _ _ he hp h1] at h1
            exact ⟨e', h1⟩
        · intro hh
          exact .inr ⟨p, (h.mem.refs p).2 hh, by simp⟩
      have hkey := (h.mem.parent _ _ _ _ he hp).1
      by_cases hst : IsStored m p
      · obtain ⟨x, h1, h2, h3⟩ := Rel.ancestor h hs d p hst
        refine ⟨x, ?_, ?_, h3⟩
        · simp only [hp, hal.2 hst, if_true, h1]
        · obtain ⟨e', h4⟩ := hst
          obtain ⟨b, h5, h6⟩ := hl.2 ⟨p, e', hp, h4⟩
          rw [if_pos (by rw [h5]; simpa using h6), ← hkey]
          exact h2
      · refine ⟨none, ?_, ?_, by simp⟩
        · have : ¬ alive m.refs held p.arc = true := fun hh => hst (hal.1 hh)
          simp only [hp, if_neg this]
        · rw [if_neg]
          · rfl
          · intro hh
            cases hS : S r.key with
            | none => rw [hS] at hh; cases hh
            | some b =>
              rw [hS] at hh
              obtain ⟨r', e', h1, h2⟩ := hl.1 ⟨b, hS, by simpa using hh⟩
              rw [hp] at h1
              cases h1
              exact hst ⟨e', h2⟩

end Verif.Multiverse
