import Mathlib.Data.List.Basic
import Mathlib.Data.List.Pairwise
import Mathlib.Tactic.Ring

/-!
# Address lookup

Models `/repo/fraos/src/index_on_mmaps.rs` and the binary search of the standard library it uses.
-/

namespace Verif.Fraos

/-- Errors of the crate (`FraosError`, error.rs) as far as they are told apart here. `panic` is any
panic; `fault` a bus error on an access to a page beyond the end of a file; `stuck` says that a loop of
the model ran out of fuel, which is shown not to happen. -/
inductive Err where
  | emptyRecord
  | indexDamaged
  | dataDamaged
  | invalidOrder
  | appendZero
  | globalOrder
  | inconsistent
  | extend
  | mmap
  | protect
  | flush
  | dataLength
  | mmapWrite
  | panic
  | fault
  | stuck
deriving DecidableEq, Repr

/-! ### Binary search -/

/-- `slice::binary_search_by`, core/src/slice/mod.rs: the loop on `left`, `right`; `cmp i` compares
element `i` with the target. `fuel` is the length of the slice, never exceeded. -/
def bsearchLoop (cmp : Nat → Ordering) : Nat → Nat → Nat → Except Nat Nat
  | 0, left, _ => .error left
  | fuel + 1, left, right =>
    if left < right then
      let mid := left + (right - left) / 2
      match cmp mid with
      | .lt => bsearchLoop cmp fuel (mid + 1) right
      | .gt => bsearchLoop cmp fuel left mid
      | .eq => .ok mid
    else .error left

/-- `binary_search` on a list of keys: position of the key, or where it would be inserted. -/
def bsearch (keys : List Nat) (x : Nat) : Except Nat Nat :=
  bsearchLoop (fun i => compare (keys.getD i 0) x) keys.length 0 keys.length

theorem bsearchLoop_spec {cmp : Nat → Ordering} {n : Nat}
    (hlt : ∀ i j, i ≤ j → j < n → cmp j = .lt → cmp i = .lt)
    (hgt : ∀ i j, i ≤ j → j < n → cmp i = .gt → cmp j = .gt)
    (fuel left right : Nat) (hf : right - left ≤ fuel) (hr : right ≤ n) (hlr : left ≤ right)
    (h1 : ∀ i, i < left → cmp i = .lt) (h2 : ∀ i, right ≤ i → i < n → cmp i = .gt) :
    (∃ p, bsearchLoop cmp fuel left right = .ok p ∧ p < n ∧ cmp p = .eq) ∨
    (∃ p, bsearchLoop cmp fuel left right = .error p ∧ p ≤ n ∧ (∀ i, i < p → cmp i = .lt) ∧
      ∀ i, p ≤ i → i < n → cmp i = .gt) := by
  induction fuel generalizing left right with
  | zero =>
    right
    have : left = right := by omega
    subst this
    exact ⟨left, rfl, hr, h1, h2⟩
  | succ fuel ih =>
    unfold bsearchLoop
    by_cases hc : left < right
    · rw [if_pos hc]
      simp only
      cases hm : cmp (left + (right - left) / 2) with
      | lt =>
        simp only
        apply ih _ _ (by omega) hr (by omega) ?_ h2
        intro i hi
        exact hlt i (left + (right - left) / 2) (by omega) (by omega) hm
      | gt =>
        simp only
        apply ih _ _ (by omega) (by omega) (by omega) h1
        intro i hi hin
        exact hgt (left + (right - left) / 2) i (by omega) (by omega) hm
      | eq =>
        left
        exact ⟨_, rfl, by omega, hm⟩
    · right
      rw [if_neg hc]
      have : left = right := by omega
      subst this
      exact ⟨left, rfl, hr, h1, h2⟩

/-- Contract of the binary search on strictly increasing keys. -/
theorem bsearch_spec {keys : List Nat} (h : keys.Pairwise (· < ·)) (x : Nat) :
    (∃ p, bsearch keys x = .ok p ∧ keys[p]? = some x) ∨
    (∃ p, bsearch keys x = .error p ∧ p ≤ keys.length ∧ (∀ i k, i < p → keys[i]? = some k → k < x) ∧
      ∀ i k, p ≤ i → keys[i]? = some k → x < k) := by
  have hmono : ∀ i j, i ≤ j → j < keys.length → keys.getD i 0 ≤ keys.getD j 0 := by
    intro i j hij hj
    rcases Nat.eq_or_lt_of_le hij with rfl | hlt
    · exact le_refl _
    · have := List.pairwise_iff_getElem.mp h i j (by omega) hj hlt
      simp only [List.getD_eq_getElem?_getD]
      rw [List.getElem?_eq_getElem (by omega), List.getElem?_eq_getElem hj]
      exact Nat.le_of_lt this
  unfold bsearch
  rcases bsearchLoop_spec (cmp := fun i => compare (keys.getD i 0) x) (n := keys.length)
    (by
      intro i j hij hj hc
      simp only [Nat.compare_eq_lt] at hc ⊢
      exact lt_of_le_of_lt (hmono i j hij hj) hc)
    (by
      intro i j hij hj hc
      simp only [Nat.compare_eq_gt] at hc ⊢
      exact lt_of_lt_of_le hc (hmono i j hij hj))
    keys.length 0 keys.length (by omega) (le_refl _) (by omega) (by intro i hi; omega)
    (by intro i hi hi'; omega) with ⟨p, e, hp, hc⟩ | ⟨p, e, hp, ha, hb⟩
  · left
    refine ⟨p, e, ?_⟩
    simp only [Nat.compare_eq_eq, List.getD_eq_getElem?_getD] at hc
    rw [List.getElem?_eq_getElem hp] at hc ⊢
    simpa using hc
  · right
    refine ⟨p, e, hp, ?_, ?_⟩
    · intro i k hi hk
      have := ha i hi
      simp only [Nat.compare_eq_lt, List.getD_eq_getElem?_getD, hk] at this
      simpa using this
    · intro i k hi hk
      have hlen : i < keys.length := by
        by_contra hc
        rw [List.getElem?_eq_none (by omega)] at hk; cases hk
      have := hb i hi hlen
      simp only [Nat.compare_eq_gt, List.getD_eq_getElem?_getD, hk] at this
      simpa using this

/-! ### One mapping -/

/-- `MmapChunkAddressMapper`, index_on_mmaps.rs:54-57. -/
structure Chunk where
  start : Nat
  bounds : List Nat := []
deriving DecidableEq

namespace Chunk

/-- `size`, index_on_mmaps.rs:86-91. -/
def size (c : Chunk) : Nat := c.bounds.getLast?.getD 0

/-- `global_chunk_end`, index_on_mmaps.rs:73-80. -/
def stop (c : Chunk) : Nat := c.start + c.bounds.getLast?.getD 0

/-- `append_relative_end`, index_on_mmaps.rs:119-135. -/
def appendRelative (c : Chunk) (e : Nat) : Except Err Chunk :=
  if e = 0 then .error .appendZero
  else if c.bounds.getLast?.getD 0 ≥ e then .error .invalidOrder
  else .ok { c with bounds := c.bounds ++ [e] }

/-- `append_global_end`, index_on_mmaps.rs:94-117. -/
def appendGlobal (c : Chunk) (e : Nat) : Except Err Chunk :=
  if e < c.start then .error .invalidOrder
  else if e = c.start then .error .appendZero
  else c.appendRelative (e - c.start)

/-- `is_empty`, index_on_mmaps.rs:138-140. -/
def isEmpty (c : Chunk) : Bool := c.size == 0

/-- `find`, index_on_mmaps.rs:142-193: offset in the mapping and length. -/
def find (c : Chunk) (address : Nat) : Except Err (Option (Nat × Nat)) :=
  if c.isEmpty || address < c.start || c.stop ≤ address then .ok none
  else if address - c.start = 0 then
    .ok (c.bounds.head?.map (fun b => (address - c.start, b)))
  else
    match bsearch c.bounds (address - c.start) with
    | .ok p =>
      match c.bounds[p]? with
      | none => .error .panic
      | some off =>
        match c.bounds[p + 1]? with
        | none => .error .inconsistent
        | some b => .ok (some (off, b - off))
    | .error p =>
      match c.bounds[p]? with
      | none => .error .panic
      | some upper => .ok (some (address - c.start, upper - (address - c.start)))

end Chunk

/-! ### All mappings -/

/-- `IndexOnMmaps`, index_on_mmaps.rs:61-63. -/
abbrev Index := List Chunk

namespace Index

/-- `len`, index_on_mmaps.rs:241-246. -/
def total (ix : Index) : Nat := (ix.getLast?.map Chunk.stop).getD 0

/-- `append`, index_on_mmaps.rs:201-215. -/
def append (ix : Index) (c : Chunk) : Except Err Index :=
  if c.isEmpty then .ok ix
  else if c.start ≠ total ix then .error .globalOrder
  else .ok (ix ++ [c])

/-- The search key of a mapping, index_on_mmaps.rs:220-228. -/
def key (address : Nat) (c : Chunk) : Nat :=
  if c.start ≤ address ∧ address < c.stop then address else c.start

/-- `find`, index_on_mmaps.rs:217-239: mapping number, offset in it, length. -/
def find (ix : Index) (address : Nat) : Except Err (Option (Nat × Nat × Nat)) :=
  match bsearch (ix.map (key address)) address with
  | .error _ => .ok none
  | .ok n =>
    match ix[n]? with
    | none => .error .panic
    | some c =>
      match c.find address with
      | .error e => .error e
      | .ok none => .ok none
      | .ok (some (o, l)) => .ok (some (n, o, l))

end Index

/-! ### Lemmas -/

/-- Bounds of one chunk are positive and strictly increasing, and there is at least one. -/
structure Chunk.OK (c : Chunk) : Prop where
  nonempty : c.bounds ≠ []
  sorted : c.bounds.Pairwise (· < ·)
  pos : ∀ b ∈ c.bounds, 0 < b

theorem Chunk.OK.size_mem {c : Chunk} (h : c.OK) : c.size ∈ c.bounds := by
  unfold Chunk.size
  rw [List.getLast?_eq_some_getLast h.nonempty]
  exact List.getLast_mem h.nonempty

theorem Chunk.OK.size_pos {c : Chunk} (h : c.OK) : 0 < c.size := h.pos _ h.size_mem

theorem Chunk.OK.le_size {c : Chunk} (h : c.OK) {b : Nat} (hb : b ∈ c.bounds) : b ≤ c.size := by
  unfold Chunk.size
  rw [List.getLast?_eq_some_getLast h.nonempty]
  simp only [Option.getD_some]
  obtain ⟨i, hi, rfl⟩ := List.getElem_of_mem hb
  rw [List.getLast_eq_getElem]
  rcases Nat.lt_or_ge i (c.bounds.length - 1) with hlt | hge
  · exact Nat.le_of_lt (List.pairwise_iff_getElem.mp h.sorted i _ hi (by omega) hlt)
  · have : i = c.bounds.length - 1 := by omega
    subst this; exact le_refl _

theorem Chunk.stop_eq (c : Chunk) : c.stop = c.start + c.size := rfl

/-- The lookup in one chunk: offset, and length up to the next bound. -/
theorem Chunk.OK.find_spec {c : Chunk} (h : c.OK) {a : Nat} (h1 : c.start ≤ a) (h2 : a < c.stop) :
    ∃ l, c.find a = .ok (some (a - c.start, l)) ∧ 0 < l ∧ a - c.start + l ∈ c.bounds ∧
      ∀ b ∈ c.bounds, a - c.start < b → a - c.start + l ≤ b := by
  have hne : c.isEmpty = false := by
    unfold Chunk.isEmpty
    have := h.size_pos
    simp; omega
  have hstop := c.stop_eq
  unfold Chunk.find
  have hcond : ¬ ((c.isEmpty || decide (a < c.start) || decide (c.stop ≤ a)) = true) := by
    simp only [hne, Bool.false_or, Bool.or_eq_true, decide_eq_true_eq]; omega
  rw [if_neg hcond]
  by_cases h0 : a - c.start = 0
  · rw [if_pos h0]
    obtain ⟨b, bs, hb⟩ := List.exists_cons_of_ne_nil h.nonempty
    have hs := h.sorted
    rw [hb] at hs
    refine ⟨b, by simp [hb], h.pos b (by simp [hb]), by simp [hb, h0], ?_⟩
    intro x hx _
    rw [hb] at hx
    rcases List.mem_cons.mp hx with rfl | hx
    · omega
    · have := (List.pairwise_cons.mp hs).1 x hx
      omega
  · rw [if_neg h0]
    rcases bsearch_spec h.sorted (a - c.start) with ⟨p, e, hp⟩ | ⟨p, e, hp, ha, hb⟩
    · simp only [e, hp]
      have hlen : p < c.bounds.length := by
        by_contra hc
        rw [List.getElem?_eq_none (by omega)] at hp; cases hp
      have hnext : p + 1 < c.bounds.length := by
        by_contra hc
        have hpl : p = c.bounds.length - 1 := by omega
        have : c.size = a - c.start := by
          unfold Chunk.size
          rw [List.getLast?_eq_getElem?, ← hpl, hp]; rfl
        omega
      rw [List.getElem?_eq_getElem hnext]
      have hlt := List.pairwise_iff_getElem.mp h.sorted p (p + 1) hlen hnext (by omega)
      have hpe : c.bounds[p] = a - c.start := by
        rw [List.getElem?_eq_getElem hlen] at hp; exact Option.some.inj hp
      rw [hpe] at hlt
      refine ⟨_, rfl, by omega, ?_, ?_⟩
      · rw [Nat.add_sub_cancel' (Nat.le_of_lt hlt)]
        exact List.getElem_mem hnext
      · intro b hb hab
        rw [Nat.add_sub_cancel' (Nat.le_of_lt hlt)]
        obtain ⟨i, hi, rfl⟩ := List.getElem_of_mem hb
        by_contra hc
        have hip : i < p + 1 := by
          by_contra hge
          rcases Nat.eq_or_lt_of_le (Nat.le_of_not_lt hge) with rfl | hgt
          · omega
          · have := List.pairwise_iff_getElem.mp h.sorted (p + 1) i hnext hi hgt
            omega
        rcases Nat.eq_or_lt_of_le (Nat.le_of_lt_succ hip) with rfl | hlt'
        · omega
        · have := List.pairwise_iff_getElem.mp h.sorted i p hi hlen hlt'
          omega
    · simp only [e]
      have hpl : p < c.bounds.length := by
        by_contra hc
        have hm := h.size_mem
        obtain ⟨i, hi, hie⟩ := List.getElem_of_mem hm
        have := ha i c.size (by omega) (by rw [List.getElem?_eq_getElem hi, hie])
        omega
      rw [List.getElem?_eq_getElem hpl]
      have hup := hb p _ (le_refl _) (List.getElem?_eq_getElem hpl)
      refine ⟨_, rfl, by omega, ?_, ?_⟩
      · rw [Nat.add_sub_cancel' (Nat.le_of_lt hup)]
        exact List.getElem_mem hpl
      · intro b hbm hab
        rw [Nat.add_sub_cancel' (Nat.le_of_lt hup)]
        obtain ⟨i, hi, rfl⟩ := List.getElem_of_mem hbm
        by_contra hc
        have hip : i < p := by
          by_contra hge
          rcases Nat.eq_or_lt_of_le (Nat.le_of_not_lt hge) with rfl | hgt
          · omega
          · have := List.pairwise_iff_getElem.mp h.sorted p i hpl hi hgt
            omega
        have := ha i _ hip (List.getElem?_eq_getElem hi)
        omega

theorem Chunk.find_outside {c : Chunk} {a : Nat} (h : ¬ (c.start ≤ a ∧ a < c.stop)) :
    c.find a = .ok none := by
  unfold Chunk.find
  rw [if_pos]
  simp only [Bool.or_eq_true, decide_eq_true_eq]
  omega

/-- Chunks one after the other from `s` to `e`. -/
def Chain : Nat → List Chunk → Nat → Prop
  | s, [], e => s = e
  | s, c :: cs, e => c.start = s ∧ c.OK ∧ Chain c.stop cs e

theorem Chain.append {s m e : Nat} {a b : List Chunk} (h1 : Chain s a m) (h2 : Chain m b e) :
    Chain s (a ++ b) e := by
  induction a generalizing s with
  | nil => simp only [Chain] at h1; subst h1; exact h2
  | cons c a ih => exact ⟨h1.1, h1.2.1, ih h1.2.2⟩

theorem Chain.split {s e : Nat} {a b : List Chunk} (h : Chain s (a ++ b) e) :
    ∃ m, Chain s a m ∧ Chain m b e := by
  induction a generalizing s with
  | nil => exact ⟨s, rfl, h⟩
  | cons c a ih =>
    obtain ⟨m, h1, h2⟩ := ih h.2.2
    exact ⟨m, ⟨h.1, h.2.1, h1⟩, h2⟩

theorem Chain.le {s e : Nat} {cs : List Chunk} (h : Chain s cs e) : s ≤ e := by
  induction cs generalizing s with
  | nil => simp only [Chain] at h; omega
  | cons c cs ih =>
    have h1 := ih h.2.2
    have := h.2.1.size_pos
    have := c.stop_eq
    have := h.1
    omega

theorem Chain.total_eq {s e : Nat} {cs : List Chunk} (h : Chain s cs e) (hne : cs ≠ []) :
    Index.total cs = e := by
  induction cs generalizing s with
  | nil => exact absurd rfl hne
  | cons c cs ih =>
    cases cs with
    | nil =>
      have h3 := h.2.2
      simp only [Chain] at h3
      simp [Index.total, h3]
    | cons d ds =>
      have := ih h.2.2 (by simp)
      unfold Index.total at this ⊢
      rw [List.getLast?_cons_cons]; exact this

theorem Chain.total {e : Nat} {cs : List Chunk} (h : Chain 0 cs e) : Index.total cs = e := by
  cases cs with
  | nil => simp only [Chain] at h; subst h; rfl
  | cons c cs => exact h.total_eq (by simp)

theorem Chain.start_ge {s e : Nat} {cs : List Chunk} (h : Chain s cs e) {c : Chunk} (hc : c ∈ cs) :
    s ≤ c.start ∧ c.stop ≤ e := by
  induction cs generalizing s with
  | nil => simp at hc
  | cons d cs ih =>
    have hd := h.2.1.size_pos
    have := d.stop_eq
    have h1 := h.1
    rcases List.mem_cons.mp hc with rfl | hc
    · exact ⟨by omega, h.2.2.le⟩
    · have := ih h.2.2 hc
      omega

theorem Chain.ok {s e : Nat} {cs : List Chunk} (h : Chain s cs e) {c : Chunk} (hc : c ∈ cs) : c.OK := by
  induction cs generalizing s with
  | nil => simp at hc
  | cons d cs ih =>
    rcases List.mem_cons.mp hc with rfl | hc
    · exact h.2.1
    · exact ih h.2.2 hc

theorem Chain.keys_sorted {s e : Nat} {cs : List Chunk} (h : Chain s cs e) (a : Nat) :
    (cs.map (Index.key a)).Pairwise (· < ·) := by
  induction cs generalizing s with
  | nil => simp
  | cons c cs ih =>
    rw [List.map_cons, List.pairwise_cons]
    refine ⟨?_, ih h.2.2⟩
    intro k hk
    obtain ⟨d, hd, rfl⟩ := List.mem_map.mp hk
    have h1 := h.2.2.start_ge hd
    have h2 := h.2.1.size_pos
    have h3 := c.stop_eq
    unfold Index.key
    split <;> split <;> omega

theorem Chain.exists_mem {s e : Nat} {cs : List Chunk} (h : Chain s cs e) {a : Nat} (h1 : s ≤ a)
    (h2 : a < e) : ∃ (n : Nat) (c : Chunk), cs[n]? = some c ∧ c.start ≤ a ∧ a < c.stop := by
  induction cs generalizing s with
  | nil => simp only [Chain] at h; omega
  | cons c cs ih =>
    by_cases hc : a < c.stop
    · exact ⟨0, c, rfl, by have := h.1; omega, hc⟩
    · obtain ⟨n, d, hd, h3, h4⟩ := ih h.2.2 (by omega)
      exact ⟨n + 1, d, by simpa using hd, h3, h4⟩

/-- All boundaries, as global addresses. -/
def globalBounds (cs : List Chunk) : List Nat := cs.flatMap (fun c => c.bounds.map (c.start + ·))

theorem globalBounds_append (a b : List Chunk) :
    globalBounds (a ++ b) = globalBounds a ++ globalBounds b := by simp [globalBounds]

theorem mem_globalBounds {cs : List Chunk} {b : Nat} :
    b ∈ globalBounds cs ↔ ∃ c ∈ cs, ∃ x ∈ c.bounds, c.start + x = b := by
  simp [globalBounds]

/-- The lookup over all mappings. -/
theorem Chain.find_spec {e : Nat} {cs : List Chunk} (h : Chain 0 cs e) {a : Nat} (ha : a < e) :
    ∃ (n : Nat) (c : Chunk) (l : Nat), Index.find cs a = .ok (some (n, a - c.start, l)) ∧ cs[n]? = some c ∧
      c.start ≤ a ∧ a < c.stop ∧ 0 < l ∧ a + l ≤ c.stop ∧ a + l ∈ globalBounds cs ∧
      ∀ b ∈ globalBounds cs, a < b → a + l ≤ b := by
  obtain ⟨n, c, hn, h1, h2⟩ := h.exists_mem (Nat.zero_le a) ha
  have hmem : c ∈ cs := List.mem_of_getElem? hn
  have hok := h.ok hmem
  obtain ⟨l, hl, hpos, hin, hmin⟩ := hok.find_spec h1 h2
  have hstop := c.stop_eq
  have hsz := hok.le_size hin
  have hkey : (cs.map (Index.key a))[n]? = some a := by
    rw [List.getElem?_map, hn]; simp [Index.key, h1, h2]
  have hbs : bsearch (cs.map (Index.key a)) a = .ok n := by
    have hs := h.keys_sorted a
    rcases bsearch_spec hs a with ⟨p, e1, hp⟩ | ⟨p, e1, hp, hlt, hgt⟩
    · have hinj : p = n := by
        have hp' : p < (cs.map (Index.key a)).length := by
          by_contra hc; rw [List.getElem?_eq_none (by omega)] at hp; cases hp
        have hn' : n < (cs.map (Index.key a)).length := by
          by_contra hc; rw [List.getElem?_eq_none (by omega)] at hkey; cases hkey
        rw [List.getElem?_eq_getElem hp'] at hp
        rw [List.getElem?_eq_getElem hn'] at hkey
        have hp := Option.some.inj hp
        have hkey := Option.some.inj hkey
        rcases lt_trichotomy p n with hlt | heq | hgt
        · have := List.pairwise_iff_getElem.mp hs p n hp' hn' hlt; omega
        · exact heq
        · have := List.pairwise_iff_getElem.mp hs n p hn' hp' hgt; omega
      rw [e1, hinj]
    · exfalso
      rcases Nat.lt_or_ge n p with hlt' | hge
      · have := hlt n a hlt' hkey; omega
      · have := hgt n a hge hkey; omega
  refine ⟨n, c, l, ?_, hn, h1, h2, hpos, by omega, ?_, ?_⟩
  · unfold Index.find
    simp only [hbs, hn, hl]
  · rw [mem_globalBounds]
    exact ⟨c, hmem, _, hin, by omega⟩
  · intro b hb hab
    obtain ⟨d, hd, x, hx, rfl⟩ := mem_globalBounds.mp hb
    by_cases hdc : a < d.stop
    · by_cases hds : d.start ≤ a
      · -- the same chunk
        obtain ⟨m, hm⟩ := List.getElem?_of_mem hd
        have hkm : (cs.map (Index.key a))[m]? = some a := by
          rw [List.getElem?_map, hm]; simp [Index.key, hds, hdc]
        have hmn : m = n := by
          have hs := h.keys_sorted a
          have hm' : m < (cs.map (Index.key a)).length := by
            by_contra hc; rw [List.getElem?_eq_none (by omega)] at hkm; cases hkm
          have hn' : n < (cs.map (Index.key a)).length := by
            by_contra hc; rw [List.getElem?_eq_none (by omega)] at hkey; cases hkey
          rw [List.getElem?_eq_getElem hm'] at hkm
          rw [List.getElem?_eq_getElem hn'] at hkey
          have hkm := Option.some.inj hkm
          have hkey := Option.some.inj hkey
          rcases lt_trichotomy m n with hlt | heq | hgt
          · have := List.pairwise_iff_getElem.mp hs m n hm' hn' hlt; omega
          · exact heq
          · have := List.pairwise_iff_getElem.mp hs n m hn' hm' hgt; omega
        subst hmn
        rw [hn] at hm; cases hm
        have := hmin x hx (by omega)
        omega
      · -- a later chunk
        have hx0 := (h.ok hd).pos x hx
        have : c.stop ≤ d.start := by
          obtain ⟨m, hm⟩ := List.getElem?_of_mem hd
          by_contra hc
          -- keys are sorted, compare positions
          have hs := h.keys_sorted d.start
          have hm' : m < cs.length := by
            by_contra hcc; rw [List.getElem?_eq_none (by omega)] at hm; cases hm
          have hn' : n < cs.length := by
            by_contra hcc; rw [List.getElem?_eq_none (by omega)] at hn; cases hn
          have hdpos := (h.ok hd).size_pos
          have hdstop := d.stop_eq
          have e1 : (cs.map (Index.key d.start))[m]'(by simpa using hm') = d.start := by
            rw [List.getElem_map]
            rw [List.getElem?_eq_getElem hm'] at hm
            rw [Option.some.inj hm]
            unfold Index.key; rw [if_pos ⟨le_refl _, by omega⟩]
          have e2 : (cs.map (Index.key d.start))[n]'(by simpa using hn') = d.start := by
            rw [List.getElem_map]
            rw [List.getElem?_eq_getElem hn'] at hn
            rw [Option.some.inj hn]
            unfold Index.key; rw [if_pos ⟨by omega, by omega⟩]
          rcases lt_trichotomy m n with hlt | heq | hgt
          · have := List.pairwise_iff_getElem.mp hs m n (by simpa using hm') (by simpa using hn') hlt
            omega
          · subst heq
            rw [hn] at hm; cases hm; omega
          · have := List.pairwise_iff_getElem.mp hs n m (by simpa using hn') (by simpa using hm') hgt
            omega
        omega
    · -- an earlier chunk
      have := (h.ok hd).le_size hx
      have := d.stop_eq
      omega

theorem Chain.find_none {e : Nat} {cs : List Chunk} (h : Chain 0 cs e) {a : Nat} (ha : e ≤ a) :
    Index.find cs a = .ok none := by
  unfold Index.find
  cases hb : bsearch (cs.map (Index.key a)) a with
  | error p => rfl
  | ok p =>
    simp only
    rcases bsearch_spec (h.keys_sorted a) a with ⟨p', e1, hp⟩ | ⟨p', e1, _⟩
    · rw [hb] at e1; cases e1
      rw [List.getElem?_map] at hp
      cases hc : cs[p]? with
      | none => rw [hc] at hp; simp at hp
      | some c =>
        simp only
        have hmem : c ∈ cs := List.mem_of_getElem? hc
        have := h.start_ge hmem
        rw [Chunk.find_outside (by omega)]
    · rw [hb] at e1; cases e1

end Verif.Fraos
