import Verif.Fraos.Database
import Verif.Fraos.GrowableLemmas

/-! # Lemmas on the database -/

namespace Verif.Fraos

/-! ### Finding the end of the index -/

/-- On any contents whose first length is not zero and whose last length is zero, the search ends at a
zero that follows a non-zero. -/
theorem findEndLoop_spec {at_ : Nat → Except Err Nat} {L : Nat → Nat} {len : Nat}
    (hat : ∀ i, i < len → at_ i = .ok (L i)) (hlast : L (len - 1) = 0) (fuel start stop : Nat)
    (hfuel : stop - start < fuel) (hss : start < stop) (hstop : stop ≤ len) (h0 : L start ≠ 0)
    (hz : stop = len ∨ L stop = 0) :
    ∃ r, findEndLoop at_ len fuel start stop = .ok r ∧ r < len ∧ start < r ∧ L r = 0 ∧
      L (r - 1) ≠ 0 := by
  induction fuel generalizing start stop with
  | zero => omega
  | succ fuel ih =>
    have hlt : start < len - 1 := by
      by_contra hc
      have : start = len - 1 := by omega
      rw [this] at h0
      exact h0 hlast
    unfold findEndLoop
    rw [if_pos hlt, hat (start + 1) (by omega)]
    cases h1 : L (start + 1) with
    | zero => exact ⟨start + 1, rfl, by omega, by omega, h1, by simpa using h0⟩
    | succ n =>
      simp only
      have h2 : start + 1 < stop := by
        by_contra hc
        have : stop = start + 1 := by omega
        rcases hz with hz | hz
        · omega
        · rw [this] at hz; omega
      rw [hat ((start + stop) / 2) (by omega)]
      cases h3 : L ((start + stop) / 2) with
      | zero =>
        simp only
        exact ih start _ (by omega) (by omega) (by omega) h0 (.inr h3)
      | succ m =>
        simp only
        obtain ⟨r, e, hr1, hr2, hr3⟩ := ih ((start + stop) / 2) stop (by omega) (by omega) hstop (by omega) hz
        exact ⟨r, e, hr1, by omega, hr3⟩

/-- The search on arbitrary contents. -/
theorem findEnd_spec {at_ : Nat → Except Err Nat} {L : Nat → Nat} {len : Nat}
    (hat : ∀ i, i < len → at_ i = .ok (L i)) (hlen : 0 < len) :
    ∃ r, findEnd at_ len = .ok r ∧ r ≤ len ∧ (r < len → L r = 0) ∧ (0 < r → L (r - 1) ≠ 0) := by
  unfold findEnd
  rw [hat 0 hlen]
  simp only
  by_cases h0 : L 0 = 0
  · rw [if_pos (.inl h0)]
    exact ⟨0, rfl, by omega, fun _ => h0, by omega⟩
  · rw [if_neg (by omega), hat (len - 1) (by omega)]
    simp only
    by_cases hl : L (len - 1) ≠ 0
    · rw [if_pos hl]
      exact ⟨len, rfl, le_refl _, by omega, fun _ => hl⟩
    · rw [if_neg hl]
      obtain ⟨r, e, h1, h2, h3, h4⟩ :=
        findEndLoop_spec hat (by simpa using hl) (len + 1) 0 len (by omega) hlen (le_refl _) h0 (.inl rfl)
      exact ⟨r, e, by omega, fun _ => h3, fun _ => h4⟩

/-- The search on a padded index. -/
theorem findEnd_padded {at_ : Nat → Except Err Nat} {L : Nat → Nat} {len k : Nat}
    (hat : ∀ i, i < len → at_ i = .ok (L i)) (hlen : 0 < len) (hk : k ≤ len)
    (hnz : ∀ i, i < k → L i ≠ 0) (hz : ∀ i, k ≤ i → i < len → L i = 0) : findEnd at_ len = .ok k := by
  obtain ⟨r, e, h1, h2, h3⟩ := findEnd_spec hat hlen
  rw [e]
  rcases lt_trichotomy r k with h | h | h
  · exact absurd (h2 (by omega)) (hnz r h)
  · rw [h]
  · exact absurd (hz (r - 1) (by omega) (by omega)) (h3 (by omega))

/-! ### Index entries -/

/-- Entry `i` of index contents. -/
def entryAt (D : List UInt8) (i : Nat) : Nat × Nat :=
  (fromLe ((D.drop (16 * i)).take 8), fromLe ((D.drop (16 * i + 8)).take 8))

theorem getEntry_spec {p : Params} {a : Appender} {D : List UInt8} (h : GMOK a.g D)
    (hb : ∀ b ∈ a.g.bounds, 16 ∣ b) {i : Nat} (hi : 16 * i < 2 ^ 64) :
    getEntry p a i = .ok (if 16 * i < D.length then some (entryAt D i) else none) := by
  unfold getEntry
  rw [usize_ok hi]
  simp only
  by_cases hc : 16 * i < D.length
  · rw [if_pos hc]
    obtain ⟨v, e, hpos, hle, hin, _, hread⟩ := h.getRef_ok hc
    simp only [e]
    obtain ⟨q, hq⟩ := hb _ hin
    have hlen : 16 ≤ v.len := by omega
    rw [if_neg (by omega), hread 16 hlen]
    simp only [entryAt]
    congr 3
    · rw [List.take_take]; congr 1
    · rw [List.drop_take, List.drop_drop]
  · rw [if_neg hc, h.getRef_none (by omega)]

theorem getEntry_huge_checked {p : Params} (hp : p.checked = true) (a : Appender) {i : Nat}
    (hi : 2 ^ 64 ≤ 16 * i) : getEntry p a i = .error .panic := by
  unfold getEntry usize
  rw [if_neg (by omega), if_pos hp]

theorem getEntry_huge_wraps {p : Params} (hp : p.checked = false) (a : Appender) {n i : Nat}
    (hn : 2 ^ 64 ≤ 16 * n) (hni : 16 * n % 2 ^ 64 = 16 * i) : getEntry p a n = getEntry p a i := by
  have hi : 16 * i < 2 ^ 64 := by
    rw [← hni]; exact Nat.mod_lt _ (Nat.two_pow_pos 64)
  have e2 : usize p (16 * n) = .ok (16 * i) := by
    unfold usize
    rw [if_neg (Nat.not_lt.mpr hn), hp, if_neg Bool.false_ne_true, hni]
  unfold getEntry
  rw [e2, usize_ok hi]

theorem entryAt_entries {es : List (Nat × Nat)} {i : Nat} {e : Nat × Nat} (h : es[i]? = some e)
    (h1 : e.1 < 2 ^ 64) (h2 : e.2 < 2 ^ 64) : entryAt (entriesBytes es) i = e := by
  have hat := entriesBytes_at h
  have e1 : ((entriesBytes es).drop (16 * i)).take 8 = toLe e.1 := by
    have : ((entriesBytes es).drop (16 * i)).take 8 =
        (((entriesBytes es).drop (16 * i)).take 16).take 8 := by rw [List.take_take]; congr 1
    rw [this, hat, entryBytes, List.take_append_of_le_length (by simp), List.take_of_length_le (by simp)]
  have e2 : ((entriesBytes es).drop (16 * i + 8)).take 8 = toLe e.2 := by
    have : ((entriesBytes es).drop (16 * i + 8)).take 8 =
        (((entriesBytes es).drop (16 * i)).take 16).drop 8 := by rw [List.drop_take, List.drop_drop]
    rw [this, hat, entryBytes]
    rw [List.drop_append, List.drop_eq_nil_of_le (by simp)]
    simp
  unfold entryAt
  rw [e1, e2, fromLe_toLe h1, fromLe_toLe h2]

theorem fileHas_self (f : Blob) : FileHas f (f.read 0 f.len) := by
  refine ⟨by simp, ?_⟩
  intro i hi
  simp only [Blob.read_length] at hi
  rw [Blob.read_getElem? _ _ _ _ hi]
  simp [hi]

theorem FileHas.entryAt {f : Blob} {D : List UInt8} (h : FileHas f D) {i : Nat}
    (hi : 16 * i + 16 ≤ D.length) :
    entryAt D i = (fromLe (f.read (16 * i) 8), fromLe (f.read (16 * i + 8) 8)) := by
  unfold Verif.Fraos.entryAt
  rw [h.read (by omega), h.read (by omega)]

/-- Beyond `n` bytes all lengths are zero. -/
def TailZ (f : Blob) (n : Nat) : Prop :=
  ∀ i, n ≤ i → i < f.len → 8 ≤ i % 16 → f.get i = 0

theorem TailZ.word {f : Blob} {n : Nat} (h : TailZ f (16 * n)) {i : Nat} (hi : n ≤ i)
    (hl : 16 * i + 16 ≤ f.len) : fromLe (f.read (16 * i + 8) 8) = 0 := by
  have : f.read (16 * i + 8) 8 = [0, 0, 0, 0, 0, 0, 0, 0] := by
    have e : f.read (16 * i + 8) 8 = (List.range 8).map (fun _ => (0 : UInt8)) := by
      unfold Blob.read
      apply List.map_congr_left
      intro k hk
      rw [List.mem_range] at hk
      rw [if_pos (by omega)]
      exact h _ (by omega) (by omega) (by omega)
    rw [e]; rfl
  rw [this]; rfl

theorem TailZ.setLen {f : Blob} {n : Nat} (h : TailZ f n) (k : Nat) : TailZ (f.setLen k) n := by
  intro i h1 h2 h3
  simp only [Blob.setLen]
  split
  · exact h i h1 (by omega) h3
  · rfl

theorem TailZ.write {f : Blob} {n : Nat} (h : TailZ f n) (bs : List UInt8) :
    TailZ (f.write n bs) (n + bs.length) := by
  intro i h1 h2 h3
  rw [Blob.write_get_ge h1]
  exact h i (by omega) h2 h3

/-! ### Records -/

/-- The entries describe the records of `log` inside the data `C`, in order, and no record crosses a
boundary. -/
structure Recs (C : List UInt8) (bounds : List Nat) (es : List (Nat × Nat)) (log : List (List UInt8)) :
    Prop where
  each : List.Forall₂ (fun e r => e.2 = r.length ∧ 0 < e.2 ∧ e.1 + e.2 ≤ C.length ∧
    (C.drop e.1).take e.2 = r ∧ ∀ b ∈ bounds, ¬ (e.1 < b ∧ b < e.1 + e.2)) es log
  order : es.Pairwise (fun a b => a.1 + a.2 ≤ b.1)

theorem Recs.length {C : List UInt8} {bs : List Nat} {es : List (Nat × Nat)} {log : List (List UInt8)}
    (h : Recs C bs es log) : es.length = log.length := h.each.length_eq

theorem Recs.mono {C : List UInt8} {bs bs' : List Nat} {es : List (Nat × Nat)}
    {log : List (List UInt8)} (h : Recs C bs es log) (D : List UInt8)
    (hb : ∀ b ∈ bs', b ∈ bs ∨ C.length ≤ b) : Recs (C ++ D) bs' es log where
  each := by
    refine h.each.imp ?_
    intro e r ⟨h1, h2, h3, h4, h5⟩
    refine ⟨h1, h2, by rw [List.length_append]; omega, ?_, ?_⟩
    · rw [List.drop_append_of_le_length (by omega), List.take_append_of_le_length (by simp; omega)]
      exact h4
    · intro b hbm
      rcases hb b hbm with hb | hb
      · exact h5 b hb
      · omega
  order := h.order

theorem entriesFrom_length (off : Nat) (batch : List (List UInt8)) :
    (entriesFrom off batch).length = batch.length := by
  induction batch generalizing off with
  | nil => rfl
  | cons r rs ih => simp [entriesFrom, ih]

theorem entriesFrom_ge {off : Nat} {batch : List (List UInt8)} {e : Nat × Nat}
    (h : e ∈ entriesFrom off batch) : off ≤ e.1 ∧ e.1 + e.2 ≤ off + batch.flatten.length := by
  induction batch generalizing off with
  | nil => simp [entriesFrom] at h
  | cons r rs ih =>
    simp only [entriesFrom, List.mem_cons] at h
    rw [List.flatten_cons, List.length_append]
    rcases h with rfl | h
    · simp
    · have := ih h; omega

theorem entriesFrom_pairwise (off : Nat) (batch : List (List UInt8)) :
    (entriesFrom off batch).Pairwise (fun a b => a.1 + a.2 ≤ b.1) := by
  induction batch generalizing off with
  | nil => simp [entriesFrom]
  | cons r rs ih =>
    simp only [entriesFrom, List.pairwise_cons]
    refine ⟨?_, ih _⟩
    intro e he
    exact (entriesFrom_ge he).1

theorem entriesFrom_recs (C : List UInt8) (batch : List (List UInt8)) (hne : ∀ r ∈ batch, r ≠ [])
    {bs : List Nat} (hb : ∀ b ∈ bs, b ≤ C.length ∨ C.length + batch.flatten.length ≤ b) :
    Recs (C ++ batch.flatten) bs (entriesFrom C.length batch) batch where
  order := entriesFrom_pairwise _ _
  each := by
    suffices h : ∀ (pre post : List (List UInt8)) (off : Nat),
        batch = pre ++ post → off = C.length + pre.flatten.length →
        List.Forall₂ (fun e r => e.2 = r.length ∧ 0 < e.2 ∧ e.1 + e.2 ≤ (C ++ batch.flatten).length ∧
          ((C ++ batch.flatten).drop e.1).take e.2 = r ∧
          ∀ b ∈ bs, ¬ (e.1 < b ∧ b < e.1 + e.2)) (entriesFrom off post) post by
      exact h [] batch C.length rfl (by simp)
    intro pre post
    induction post generalizing pre with
    | nil => intro off _ _; exact .nil
    | cons r rs ih =>
      intro off he ho
      have hr : r ≠ [] := hne r (by rw [he]; simp)
      have hlen : (C ++ batch.flatten).length =
          C.length + (pre.flatten.length + (r.length + rs.flatten.length)) := by
        rw [he]; simp
      have hbl : batch.flatten.length = pre.flatten.length + (r.length + rs.flatten.length) := by
        rw [he]; simp
      refine .cons ⟨rfl, ?_, ?_, ?_, ?_⟩ (ih (pre ++ [r]) (off + r.length) (by simp [he]) (by simp [ho]; omega))
      · exact List.length_pos_of_ne_nil hr
      · simp only; omega
      · simp only
        have : C ++ batch.flatten = (C ++ pre.flatten) ++ (r ++ rs.flatten) := by rw [he]; simp
        rw [this, ho, List.drop_append, List.drop_eq_nil_of_le (by simp)]
        simp
      · intro b hbm hcon
        simp only at hcon
        rcases hb b hbm with h | h <;> omega

theorem Recs.append {C D : List UInt8} {bs : List Nat} {es es' : List (Nat × Nat)}
    {log log' : List (List UInt8)} (h : Recs (C ++ D) bs es log) (h' : Recs (C ++ D) bs es' log')
    (h1 : ∀ e ∈ es, e.1 + e.2 ≤ C.length) (h2 : ∀ e ∈ es', C.length ≤ e.1) :
    Recs (C ++ D) bs (es ++ es') (log ++ log') where
  each := List.rel_append h.each h'.each
  order := by
    rw [List.pairwise_append]
    refine ⟨h.order, h'.order, ?_⟩
    intro a ha b hb
    exact le_trans (h1 a ha) (h2 b hb)

theorem Recs.mem {C : List UInt8} {bs : List Nat} {es : List (Nat × Nat)} {log : List (List UInt8)}
    (h : Recs C bs es log) {e : Nat × Nat} (he : e ∈ es) : 0 < e.2 ∧ e.1 + e.2 ≤ C.length := by
  obtain ⟨i, hi⟩ := List.getElem?_of_mem he
  obtain ⟨r, _, hr⟩ := forall2_getElem h.each hi
  exact ⟨hr.2.1, hr.2.2.1⟩

theorem Recs.count_le {C : List UInt8} {bs : List Nat} {es : List (Nat × Nat)}
    {log : List (List UInt8)} (h : Recs C bs es log) : es.length ≤ C.length := by
  have key : ∀ (l : List (Nat × Nat)) (lo : Nat), l.Pairwise (fun a b => a.1 + a.2 ≤ b.1) →
      (∀ e ∈ l, lo ≤ e.1 ∧ 0 < e.2 ∧ e.1 + e.2 ≤ C.length) → lo ≤ C.length → lo + l.length ≤ C.length := by
    intro l
    induction l with
    | nil => intro lo _ _ h; simpa using h
    | cons x xs ih =>
      intro lo hp hm _
      rw [List.pairwise_cons] at hp
      have hx := hm x (by simp)
      have := ih (lo + 1) hp.2 (fun e he => by
        have h1 := hp.1 e he
        have h2 := hm e (by simp [he])
        exact ⟨by omega, h2.2⟩) (by omega)
      simp only [List.length_cons]; omega
  have := key es 0 h.order (fun e he => ⟨by omega, h.mem he⟩) (by omega)
  omega

theorem Recs.last_end {C : List UInt8} {bs : List Nat} {es : List (Nat × Nat)}
    {log : List (List UInt8)} (h : Recs C bs es log) {e l : Nat × Nat} (he : e ∈ es)
    (hl : es.getLast? = some l) : e.1 + e.2 ≤ l.1 + l.2 := by
  have hne : es ≠ [] := by intro h0; rw [h0] at hl; simp at hl
  obtain ⟨pre, hpre⟩ : ∃ pre, es = pre ++ [l] := by
    refine ⟨es.dropLast, ?_⟩
    rw [List.getLast?_eq_some_getLast hne] at hl
    rw [← Option.some.inj hl]
    exact (List.dropLast_append_getLast hne).symm
  rw [hpre] at he
  have ho := h.order
  rw [hpre, List.pairwise_append] at ho
  rcases List.mem_append.mp he with he | he
  · have := ho.2.2 e he l (by simp)
    omega
  · simp only [List.mem_singleton] at he
    subst he; exact le_refl _

/-! ### The invariant -/

/-- The database holds the records `log`. -/
structure DBInv (db : DB) (es : List (Nat × Nat)) (C : List UInt8) (log : List (List UInt8)) : Prop where
  idxOK : GMOK db.idx.g (entriesBytes es)
  idxBounds : ∀ b ∈ db.idx.g.bounds, 16 ∣ b
  idxSize : db.idx.size = 16 * es.length
  dataOK : GMOK db.data.g C
  dataSize : db.data.size = C.length
  recs : Recs C db.data.g.bounds es log
  fits : C.length < 2 ^ 60
  tail : ∀ f, db.idx.g.file = some f → TailZ f (16 * es.length) ∧ 16 ∣ f.len
  mode : db.data.g.file.isSome = db.idx.g.file.isSome

/-- Both active mappings lie inside their files. -/
def DBRoom (db : DB) : Prop := Room db.idx.g ∧ Room db.data.g

/-- The database holds the records `log` and is ready for more. -/
def DBOK (db : DB) (log : List (List UInt8)) : Prop := ∃ es C, DBInv db es C log ∧ DBRoom db

namespace DBInv

variable {p : Params} {db : DB} {es : List (Nat × Nat)} {C : List UInt8} {log : List (List UInt8)}

theorem len_eq (h : DBInv db es C log) : db.len = log.length := by
  unfold DB.len idxLen
  rw [h.idxSize, ← h.recs.length]; omega

theorem entry_lt (h : DBInv db es C log) {e : Nat × Nat} (he : e ∈ es) :
    e.1 < 2 ^ 64 ∧ e.2 < 2 ^ 64 ∧ e.1 + e.2 < 2 ^ 60 := by
  have := h.recs.mem he
  have := h.fits
  omega

theorem getEntry_ok (h : DBInv db es C log) {i : Nat} (hi : i < 2 ^ 60) :
    getEntry p db.idx i = .ok es[i]? := by
  rw [getEntry_spec h.idxOK h.idxBounds (by omega)]
  simp only [entriesBytes_length]
  by_cases hc : 16 * i < 16 * es.length
  · rw [if_pos hc]
    have hg : es[i]? = some es[i] := List.getElem?_eq_getElem (by omega)
    rw [hg]
    have hm := h.entry_lt (List.getElem_mem (by omega : i < es.length))
    rw [entryAt_entries hg hm.1 hm.2.1]
  · rw [if_neg hc, List.getElem?_eq_none (by omega)]

theorem getRecord_ok (h : DBInv db es C log) {i : Nat} {e : Nat × Nat} (he : es[i]? = some e) :
    getRecord db.data e.1 e.2 = .ok log[i]? := by
  obtain ⟨r, hr, h1, h2, h3, h4, h5⟩ := forall2_getElem h.recs.each he
  unfold getRecord
  obtain ⟨v, ev, hpos, hle, hin, _, hread⟩ := h.dataOK.getRef_ok (a := e.1) (by omega)
  have hlen : e.2 ≤ v.len := by
    by_contra hc
    exact h5 _ hin ⟨by omega, by omega⟩
  simp only [ev]
  rw [if_neg (by omega), hread _ hlen, h4, hr]

/-- Reading by sequence number. -/
theorem get_ok (h : DBInv db es C log) {i : Nat} (hi : i < 2 ^ 60) : db.get p i = .ok log[i]? := by
  unfold DB.get
  rw [h.getEntry_ok hi]
  cases hes : es[i]? with
  | none =>
    have : log[i]? = none := by
      rw [List.getElem?_eq_none_iff] at hes ⊢
      have := h.recs.length
      omega
    rw [this]
  | some e =>
    simp only
    exact h.getRecord_ok hes

theorem next_ok (h : DBInv db es C log) {i : Nat} (hi : i < 2 ^ 60) :
    db.next p i = (.ok log[i]?, if i < log.length then i + 1 else i) := by
  have hl := h.recs.length
  unfold DB.next
  rw [h.getEntry_ok hi]
  cases hes : es[i]? with
  | none =>
    rw [List.getElem?_eq_none_iff] at hes
    have : log[i]? = none := by rw [List.getElem?_eq_none_iff]; omega
    rw [this, if_neg (by omega)]
  | some e =>
    have hlt : i < es.length := by
      by_contra hc; rw [List.getElem?_eq_none (by omega)] at hes; cases hes
    simp only
    rw [h.getRecord_ok hes, if_pos (by omega)]

theorem log_lt (h : DBInv db es C log) : log.length < 2 ^ 60 := by
  have := h.recs.count_le
  have := h.recs.length
  have := h.fits
  omega

theorem last_ok (h : DBInv db es C log) : db.last p = .ok log.getLast? := by
  unfold DB.last DB.isEmpty
  rw [h.len_eq]
  by_cases hc : log.length = 0
  · have : log = [] := List.length_eq_zero_iff.mp hc
    subst this
    simp
  · rw [if_neg (by simpa using hc), h.get_ok (by have := h.log_lt; omega), List.getLast?_eq_getElem?]

end DBInv

/-! ### Appending -/

theorem any_isEmpty_false {batch : List (List UInt8)} (h : ∀ r ∈ batch, r ≠ []) :
    batch.any List.isEmpty = false := by
  rw [List.any_eq_false]
  intro r hr
  have := h r hr
  cases r <;> simp_all

/-- Only extending or mapping a file may fail. -/
structure Faults.Early (ft : Faults) : Prop where
  protect : ft.protect = false
  flush : ft.flush = false
  remap : ft.remap = false

theorem Faults.none_early : Faults.none.Early := ⟨rfl, rfl, rfl⟩

/-- Appending to the data file. -/
theorem flatAppend_spec {p : Params} {a : Appender} {C : List UInt8} (h : GMOK a.g C) (hr : Room a.g)
    {ft : Faults} (hft : ft.Early) {batch : List (List UInt8)} (hb : batch ≠ [])
    (hne : ∀ r ∈ batch, r ≠ []) :
    (∃ g1, flatAppend p a ft batch = (.ok (), ⟨g1, a.size + batch.flatten.length⟩) ∧
      GMOK g1 (C ++ batch.flatten) ∧ Room g1 ∧
      (∀ b ∈ g1.bounds, b ∈ a.g.bounds ∨ b = C.length + batch.flatten.length) ∧
      g1.writable = a.g.writable ∧ g1.file.isSome = a.g.file.isSome) ∨
    (∃ e g1, flatAppend p a ft batch = (.error e, ⟨g1, a.size⟩) ∧
      Unharmed (a.g.newSize p batch.flatten.length) a.g g1 C ∧
      ((e = .extend ∧ (ft.setLen = true ∨ a.g.writable = false)) ∨ (e = .mmap ∧ ft.map = true))) := by
  have hpos : 0 < batch.flatten.length := by
    cases batch with
    | nil => exact absurd rfl hb
    | cons r rs =>
      have := List.length_pos_of_ne_nil (hne r (by simp))
      simp only [List.flatten_cons, List.length_append]; omega
  unfold flatAppend
  have h1 : batch.isEmpty = false := by cases batch with
    | nil => exact absurd rfl hb
    | cons => rfl
  rw [h1, any_isEmpty_false hne, ← List.length_flatten]
  simp only [Bool.false_eq_true, if_false]
  unfold Appender.append
  rw [if_neg (by omega)]
  rcases grow_spec (p := p) h hr hft.protect hft.flush hft.remap hpos (f := writeRecords batch)
    (by intro n hn; unfold writeRecords; rw [if_pos hn]) with
    ⟨g1, e, hok, hroom, hbd, hw, fs, hs, hf⟩ | ⟨er, g1, e, hu, he⟩
  · left
    simp only [e]
    refine ⟨g1, rfl, hok, hroom, hbd, hw, ?_⟩
    rw [hf, Option.isSome_map, hs.isSome]
  · right
    simp only [e]
    exact ⟨er, g1, rfl, hu, he⟩

theorem newSize_dvd {p : Params} (hp : 16 ∣ p.minMmap) {g : GM} {n : Nat} (hn : 16 ∣ n) :
    16 ∣ g.newSize p n := by
  unfold GM.newSize
  cases g.file with
  | none => exact hn
  | some _ =>
    simp only
    rcases Nat.le_total n p.minMmap with h | h
    · rw [Nat.max_eq_right h]; exact hp
    · rw [Nat.max_eq_left h]; exact hn

theorem Stretch.tail {n k : Nat} (hn : 16 ∣ n) (hk : 16 ∣ k) {f f1 : Option Blob} (h : Stretch n k f f1)
    (ht : ∀ b, f = some b → TailZ b n ∧ 16 ∣ b.len) : ∀ b, f1 = some b → TailZ b n ∧ 16 ∣ b.len := by
  rcases h with rfl | ⟨b, rfl, rfl⟩
  · exact ht
  · intro b' hb'
    cases hb'
    refine ⟨(ht b rfl).1.setLen _, ?_⟩
    rw [Blob.setLen_len]
    exact Nat.dvd_add hn hk

/-- The file keeps its length or gets length `n`. -/
def LenStep (n : Nat) (f f1 : Option Blob) : Prop :=
  ∀ b1, f1 = some b1 → b1.len = n ∨ ∃ b, f = some b ∧ b1.len = b.len

theorem Stretch.lenStep {n k : Nat} {f f1 : Option Blob} (h : Stretch n k f f1) :
    LenStep (n + k) f f1 := by
  intro b1 hb1
  rcases h with rfl | ⟨b, rfl, rfl⟩
  · exact .inr ⟨b1, hb1, rfl⟩
  · cases hb1; exact .inl rfl

theorem LenStep.write {n o : Nat} {bs : List UInt8} {f f1 : Option Blob} (h : LenStep n f f1) :
    LenStep n f (f1.map (·.write o bs)) := by
  intro b1 hb1
  cases hf : f1 with
  | none => rw [hf] at hb1; cases hb1
  | some b =>
    rw [hf] at hb1
    cases hb1
    exact h b hf

/-- Appending to the index. -/
theorem idxAppend_spec {p : Params} (hp : 16 ∣ p.minMmap) {a : Appender} {es new : List (Nat × Nat)}
    (h : GMOK a.g (entriesBytes es)) (hr : Room a.g) (hbd : ∀ b ∈ a.g.bounds, 16 ∣ b)
    (hsz : a.size = 16 * es.length)
    (ht : ∀ f, a.g.file = some f → TailZ f (16 * es.length) ∧ 16 ∣ f.len)
    {ft : Faults} (hft : ft.Early) (hb : new ≠ []) (hne : ∀ e ∈ new, e.2 ≠ 0) :
    (∃ a1, idxAppend p a ft new = (.ok (some es.length), a1) ∧ GMOK a1.g (entriesBytes (es ++ new)) ∧
      Room a1.g ∧ (∀ b ∈ a1.g.bounds, 16 ∣ b) ∧ a1.size = 16 * (es ++ new).length ∧
      (∀ f, a1.g.file = some f → TailZ f (16 * (es ++ new).length) ∧ 16 ∣ f.len) ∧
      a1.g.writable = a.g.writable ∧ a1.g.file.isSome = a.g.file.isSome ∧
      LenStep (16 * es.length + a.g.newSize p (16 * new.length)) a.g.file a1.g.file) ∨
    (∃ e g1, idxAppend p a ft new = (.error e, ⟨g1, a.size⟩) ∧
      Unharmed (a.g.newSize p (16 * new.length)) a.g g1 (entriesBytes es) ∧
      (∀ f, g1.file = some f → TailZ f (16 * es.length) ∧ 16 ∣ f.len) ∧
      ((e = .extend ∧ (ft.setLen = true ∨ a.g.writable = false)) ∨ (e = .mmap ∧ ft.map = true))) := by
  have hpos : 0 < (entriesBytes new).length := by
    rw [entriesBytes_length]
    have := List.length_pos_of_ne_nil hb
    omega
  have h1 : new.isEmpty = false := by cases new with
    | nil => exact absurd rfl hb
    | cons => rfl
  have h2 : new.any (fun e => e.2 == 0) = false := by
    rw [List.any_eq_false]
    intro e he
    have := hne e he
    simpa using this
  unfold idxAppend
  rw [h1, h2]
  simp only [Bool.false_eq_true, if_false]
  unfold Appender.append
  rw [← entriesBytes_length, if_neg (by omega)]
  rcases grow_spec (p := p) h hr hft.protect hft.flush hft.remap hpos (f := writeEntries new)
    (by
      intro n hn
      rw [entriesBytes_length] at hn
      unfold writeEntries; rw [if_neg (by omega)]) with
    ⟨g1, e, hok, hroom, hbd1, hw, fs, hs, hf⟩ | ⟨er, g1, e, hu, he⟩
  · left
    simp only [e]
    have hk : 16 ∣ a.g.newSize p (entriesBytes new).length :=
      newSize_dvd hp (by rw [entriesBytes_length]; exact ⟨_, rfl⟩)
    refine ⟨⟨g1, a.size + (entriesBytes new).length⟩, ?_, ?_, hroom, ?_, ?_, ?_, hw, ?_, ?_⟩
    · unfold idxLen
      rw [hsz, show 16 * es.length / 16 = es.length by omega]
    · rw [entriesBytes_append]; exact hok
    · intro b hb
      rcases hbd1 b hb with hb | hb
      · exact hbd b hb
      · simp only [entriesBytes_length] at hb
        exact ⟨es.length + new.length, by omega⟩
    · simp only [hsz, entriesBytes_length, List.length_append]; ring
    · intro f hff
      simp only at hff
      rw [hf] at hff
      cases hfs : fs with
      | none => rw [hfs] at hff; simp at hff
      | some f1 =>
        rw [hfs] at hff
        simp only [Option.map_some, Option.some.injEq] at hff
        subst hff
        rw [entriesBytes_length] at hs ⊢
        have := hs.tail ⟨_, rfl⟩ hk ht f1 hfs
        refine ⟨?_, by simpa using this.2⟩
        have hw := this.1.write (entriesBytes new)
        rw [entriesBytes_length] at hw
        rw [List.length_append, Nat.mul_add]; exact hw
    · rw [hf, Option.isSome_map, hs.isSome]
    · simp only
      rw [hf]
      have := hs.lenStep
      rw [entriesBytes_length es] at this
      exact this.write
  · right
    simp only [e]
    refine ⟨er, g1, rfl, by rw [entriesBytes_length] at hu ⊢; exact hu, ?_, he⟩
    have hs := hu.file
    rw [entriesBytes_length] at hs
    exact hs.tail ⟨_, rfl⟩ (newSize_dvd hp (by simp [entriesBytes_length])) ht

/-- Appending a batch of non-empty records, where files may fail to be extended or mapped. -/
theorem append_spec {p : Params} (hp : 16 ∣ p.minMmap) {db : DB} {es : List (Nat × Nat)}
    {C : List UInt8} {log : List (List UInt8)} (h : DBInv db es C log) (hr : DBRoom db) {fd fi : Faults}
    (hfd : fd.Early) (hfi : fi.Early) {batch : List (List UInt8)} (hb : batch ≠ [])
    (hne : ∀ r ∈ batch, r ≠ []) (hfit : C.length + batch.flatten.length < 2 ^ 60) :
    (∃ db1, db.append p fd fi batch = (.ok (some log.length), db1) ∧
      DBInv db1 (es ++ entriesFrom C.length batch) (C ++ batch.flatten) (log ++ batch) ∧ DBRoom db1 ∧
      db1.data.g.writable = db.data.g.writable ∧ db1.idx.g.writable = db.idx.g.writable ∧
      db1.idx.g.file.isSome = db.idx.g.file.isSome ∧
      LenStep (16 * es.length + db.idx.g.newSize p (16 * batch.length)) db.idx.g.file db1.idx.g.file) ∨
    (∃ e db1 D, db.append p fd fi batch = (.error e, db1) ∧ DBInv db1 es (C ++ D) log ∧ DBRoom db1 ∧
      D.length ≤ batch.flatten.length ∧
      db1.data.g.writable = db.data.g.writable ∧ db1.idx.g.writable = db.idx.g.writable ∧
      db1.idx.g.file.isSome = db.idx.g.file.isSome ∧
      LenStep (16 * es.length + db.idx.g.newSize p (16 * batch.length)) db.idx.g.file db1.idx.g.file ∧
      ((e = .extend ∧ (fd.setLen = true ∨ fi.setLen = true ∨ db.data.g.writable = false ∨
        db.idx.g.writable = false)) ∨ (e = .mmap ∧ (fd.map = true ∨ fi.map = true)))) := by
  have hbe : batch.isEmpty = false := by cases batch with
    | nil => exact absurd rfl hb
    | cons => rfl
  unfold DB.append
  rw [hbe]
  simp only [Bool.false_eq_true, if_false]
  rcases flatAppend_spec (p := p) h.dataOK hr.2 hfd hb hne with
    ⟨g1, e, hok, hroom, hbd, hw, hmode⟩ | ⟨er, g1, e, hu, he⟩
  · simp only [e]
    have hnew : entriesFrom db.data.size batch ≠ [] := by
      intro h0
      have := entriesFrom_length db.data.size batch
      rw [h0] at this
      have := List.length_pos_of_ne_nil hb
      simp_all
    have hrn : Recs (C ++ batch.flatten) g1.bounds (entriesFrom C.length batch) batch := by
      apply entriesFrom_recs C batch hne
      intro b hbm
      rcases hbd b hbm with hb | hb
      · left
        obtain ⟨c, hc, x, hx, rfl⟩ := mem_globalBounds.mp hb
        have h1 := h.dataOK.chain.start_ge hc
        have h2 := (h.dataOK.chain.ok hc).le_size hx
        have := c.stop_eq
        omega
      · right; omega
    have hro : Recs (C ++ batch.flatten) g1.bounds es log := by
      apply h.recs.mono
      intro b hb
      rcases hbd b hb with hb | hb
      · exact .inl hb
      · right; omega
    have hnz : ∀ e ∈ entriesFrom db.data.size batch, e.2 ≠ 0 := by
      rw [h.dataSize]
      intro e he
      have := hrn.mem he
      omega
    rcases idxAppend_spec (p := p) hp h.idxOK hr.1 h.idxBounds h.idxSize h.tail hfi hnew hnz with
      ⟨a1, e1, hok1, hroom1, hbd1, hsz1, ht1, hw1, hm1, hl1⟩ | ⟨er, g2, e1, hu, ht1, he⟩
    · left
      simp only [e1, ← h.recs.length]
      rw [h.dataSize] at hok1 hsz1 ht1
      refine ⟨_, rfl, ⟨hok1, hbd1, hsz1, hok, ?_, ?_, ?_, ht1, ?_⟩, ⟨hroom1, hroom⟩, hw, hw1, hm1,
        by rw [entriesFrom_length] at hl1; exact hl1⟩
      · simp [h.dataSize]
      · exact hro.append hrn (fun e he => (h.recs.mem he).2) (fun e he => (entriesFrom_ge he).1)
      · rw [List.length_append]; exact hfit
      · simp only; rw [hmode, hm1, h.mode]
    · right
      simp only [e1]
      refine ⟨er, _, batch.flatten, rfl, ⟨hu.ok, ?_, h.idxSize, hok, ?_, hro, ?_, ht1, ?_⟩,
        ⟨hu.room, hroom⟩, le_refl _, hw, hu.writable, hu.file.isSome,
        by have := hu.file.lenStep; rw [entriesFrom_length, entriesBytes_length] at this; exact this, ?_⟩
      · simp only; rw [hu.bounds]; exact h.idxBounds
      · simp [h.dataSize]
      · rw [List.length_append]; exact hfit
      · simp only; rw [hmode, hu.file.isSome, h.mode]
      · rcases he with ⟨rfl, h | h⟩ | ⟨rfl, h⟩
        · exact .inl ⟨rfl, .inr (.inl h)⟩
        · exact .inl ⟨rfl, .inr (.inr (.inr h))⟩
        · exact .inr ⟨rfl, .inr h⟩
  · right
    simp only [e]
    refine ⟨er, _, [], rfl, ⟨h.idxOK, h.idxBounds, h.idxSize, ?_, ?_, ?_, ?_, h.tail, ?_⟩,
      ⟨hr.1, hu.room⟩, by simp, hu.writable, rfl, rfl,
      fun b hb => .inr ⟨b, hb, rfl⟩, ?_⟩
    · rw [List.append_nil]; exact hu.ok
    · simpa using h.dataSize
    · rw [List.append_nil]; simp only; rw [hu.bounds]; exact h.recs
    · rw [List.append_nil]; exact h.fits
    · simp only; rw [hu.file.isSome, h.mode]
    · rcases he with ⟨rfl, h | h⟩ | ⟨rfl, h⟩
      · exact .inl ⟨rfl, .inl h⟩
      · exact .inl ⟨rfl, .inr (.inr (.inl h))⟩
      · exact .inr ⟨rfl, .inl h⟩

/-- A batch with an empty record is refused. -/
theorem append_rejects {p : Params} (db : DB) (fd fi : Faults) {batch : List (List UInt8)}
    (h : [] ∈ batch) : db.append p fd fi batch = (.error .emptyRecord, db) := by
  have hbe : batch.isEmpty = false := by cases batch with
    | nil => simp at h
    | cons => rfl
  have ha : batch.any List.isEmpty = true := by
    rw [List.any_eq_true]; exact ⟨[], h, rfl⟩
  unfold DB.append flatAppend
  simp [hbe, ha]

theorem append_empty {p : Params} (db : DB) (fd fi : Faults) :
    db.append p fd fi [] = (.ok none, db) := rfl

/-! ### Files on disk -/

/-- The two files hold the records `log`: the index starts with entries for them and has only zero
lengths after that; the data file has the records at those places. -/
structure DiskOK (data idx : Blob) (log : List (List UInt8)) (used : Nat) : Prop where
  ex : ∃ es C, FileHas idx (entriesBytes es) ∧ TailZ idx (16 * es.length) ∧ 16 ∣ idx.len ∧
    FileHas data C ∧ Recs C [] es log ∧ C.length < 2 ^ 60 ∧ C.length ≤ used
  idxFits : idx.len < 2 ^ 64

theorem Recs.bounds {C : List UInt8} {bs bs' : List Nat} {es : List (Nat × Nat)}
    {log : List (List UInt8)} (h : Recs C bs es log)
    (hb : ∀ b ∈ bs', ∀ e ∈ es, ¬ (e.1 < b ∧ b < e.1 + e.2)) : Recs C bs' es log := by
  refine ⟨?_, h.order⟩
  have := h.each
  rw [List.forall₂_iff_get] at this ⊢
  refine ⟨this.1, ?_⟩
  intro i h1 h2
  obtain ⟨a, b, c, d, _⟩ := this.2 i h1 h2
  exact ⟨a, b, c, d, fun x hx => hb x hx _ (List.get_mem _ _)⟩

/-- Opening the index. -/
theorem idxOpen_spec {p : Params} {f : Blob} {es : List (Nat × Nat)} (h : FileHas f (entriesBytes es))
    (ht : TailZ f (16 * es.length)) (h16 : 16 ∣ f.len) (hlt : f.len < 2 ^ 64)
    (hes : ∀ e ∈ es, 0 < e.2 ∧ e.1 < 2 ^ 64 ∧ e.2 < 2 ^ 64) (w : Bool) :
    ∃ a, idxOpen p (some f) w = .ok a ∧ GMOK a.g (entriesBytes es) ∧ Room a.g ∧
      (∀ b ∈ a.g.bounds, 16 ∣ b) ∧ a.size = 16 * es.length ∧ a.g.file = some f ∧ a.g.writable = w := by
  have hself := fileHas_self f
  obtain ⟨g0, e0, hok0, hr0, hb0, hf0, hw0⟩ := new_file hself w none (by simp)
  have hb16 : ∀ b ∈ g0.bounds, 16 ∣ b := by
    intro b hb
    rw [hb0 b hb]; simpa using h16
  have hlen0 : g0.len = f.len := by rw [hok0.len_eq]; simp
  have hle : 16 * es.length ≤ f.len := by have := h.1; rwa [entriesBytes_length] at this
  obtain ⟨q, hq⟩ := h16
  have hentry : ∀ i, i < q → getEntry p ⟨g0, f.len⟩ i =
      .ok (some (fromLe (f.read (16 * i) 8), fromLe (f.read (16 * i + 8) 8))) := by
    intro i hi
    rw [getEntry_spec (a := ⟨g0, f.len⟩) hok0 hb16 (by omega), if_pos (by simp; omega),
      hself.entryAt (by simp; omega)]
  have hold : ∀ i (hi : i < es.length), (fromLe (f.read (16 * i) 8), fromLe (f.read (16 * i + 8) 8)) = es[i] := by
    intro i hi
    have hm := hes _ (List.getElem_mem hi)
    rw [← h.entryAt (by rw [entriesBytes_length]; omega),
      entryAt_entries (List.getElem?_eq_getElem hi) hm.2.1 hm.2.2]
  have hnew : ∀ i, es.length ≤ i → i < q → fromLe (f.read (16 * i + 8) 8) = 0 := by
    intro i h1 h2
    exact ht.word h1 (by omega)
  unfold idxOpen Appender.new
  simp only [e0]
  unfold idxLast idxLen
  simp only [hlen0]
  have hdiv : f.len / 16 = q := by omega
  rw [hdiv]
  by_cases hq0 : q = 0
  · rw [if_pos hq0]
    have hnil : es = [] := by
      cases es with
      | nil => rfl
      | cons x xs => simp at hle; omega
    subst hnil
    simp only
    refine ⟨_, rfl, ?_, hr0, hb16, ?_, hf0, hw0⟩
    · have : f.read 0 f.len = entriesBytes [] := by
        rw [hq, hq0]; rfl
      rw [this] at hok0; exact hok0
    · simp [hq, hq0]
  · rw [if_neg hq0, hentry (q - 1) (by omega)]
    simp only
    by_cases hc : es.length = q
    · -- the file was cut to size
      have hlast : fromLe (f.read (16 * (q - 1) + 8) 8) ≠ 0 := by
        have h1 := hold (q - 1) (by omega)
        have h2 := hes _ (List.getElem_mem (by omega : q - 1 < es.length))
        rw [← h1] at h2
        simp only at h2; omega
      rw [if_neg hlast]
      refine ⟨_, rfl, ?_, hr0, hb16, ?_, hf0, hw0⟩
      · have : f.read 0 f.len = entriesBytes es := by
          rw [h.read (by rw [entriesBytes_length]; omega), List.drop_zero,
            List.take_of_length_le (by rw [entriesBytes_length]; omega)]
        rw [this] at hok0; exact hok0
      · simp only; omega
    · -- there is padding
      rw [if_pos (hnew (q - 1) (by omega) (by omega))]
      have hfe : findEnd (lengthAt p ⟨g0, f.len⟩) q = .ok es.length := by
        apply findEnd_padded (L := fun i => fromLe (f.read (16 * i + 8) 8)) _ (by omega) (by omega)
        · intro i hi
          have h1 := hold i hi
          have h2 := hes _ (List.getElem_mem hi)
          rw [← h1] at h2
          simp only at h2 ⊢; omega
        · intro i h1 h2
          exact hnew i h1 h2
        · intro i hi
          have h1 := hentry i hi
          unfold lengthAt
          rw [h1]
      rw [hfe]
      simp only
      obtain ⟨g1, e1, hok1, hr1, hb1, hf1, hw1⟩ := new_file h w (some (16 * es.length))
        (by simp [entriesBytes_length])
      simp only [e1]
      refine ⟨_, rfl, hok1, hr1, ?_, ?_, hf1, hw1⟩
      · intro b hb
        rw [hb1 b hb, entriesBytes_length]; exact ⟨_, rfl⟩
      · simp only; rw [hok1.len_eq, entriesBytes_length]

theorem FileHas.take {f : Blob} {C : List UInt8} (h : FileHas f C) (n : Nat) : FileHas f (C.take n) := by
  refine ⟨le_trans (by simp) h.1, ?_⟩
  intro i hi
  simp only [List.length_take] at hi
  rw [List.getElem?_take_of_lt (by omega)]
  exact h.2 i (by omega)

theorem Recs.take {C : List UInt8} {bs : List Nat} {es : List (Nat × Nat)} {log : List (List UInt8)}
    (h : Recs C bs es log) {n : Nat} (hn : ∀ e ∈ es, e.1 + e.2 ≤ n) : Recs (C.take n) bs es log := by
  refine ⟨?_, h.order⟩
  have := h.each
  rw [List.forall₂_iff_get] at this ⊢
  refine ⟨this.1, ?_⟩
  intro i h1 h2
  obtain ⟨a, b, c, d, e⟩ := this.2 i h1 h2
  have hle := hn _ (List.get_mem es ⟨i, h1⟩)
  refine ⟨a, b, by rw [List.length_take]; omega, ?_, e⟩
  rw [List.drop_take, List.take_take, Nat.min_eq_left (by omega)]
  exact d

/-- Opening a directory whose files hold `log`. -/
theorem open_spec {p : Params} {data idx : Blob} {log : List (List UInt8)} {used : Nat}
    (h : DiskOK data idx log used) (w : Bool) :
    ∃ db es C, DB.openDB p (some data) (some idx) w = .ok db ∧ DBInv db es C log ∧ DBRoom db ∧
      C.length ≤ used ∧ db.data.g.writable = w ∧ db.idx.g.writable = w ∧
      db.data.g.file = some data ∧ db.idx.g.file = some idx := by
  obtain ⟨es, C, hidx, ht, h16, hdata, hrecs, hfit, hused⟩ := h.ex
  have hlt : ∀ e ∈ es, 0 < e.2 ∧ e.1 < 2 ^ 64 ∧ e.2 < 2 ^ 64 := by
    intro e he
    have := hrecs.mem he
    omega
  obtain ⟨a, ea, hok, hr, hb, hsz, hf, hw⟩ := idxOpen_spec (p := p) hidx ht h16 h.idxFits hlt w
  have hcount := hrecs.count_le
  -- the last entry
  have hlast : idxLast p a = .ok es.getLast? := by
    unfold idxLast idxLen
    rw [hsz, show 16 * es.length / 16 = es.length by omega]
    by_cases hc : es.length = 0
    · rw [if_pos hc, List.length_eq_zero_iff.mp hc]; rfl
    · rw [if_neg hc, getEntry_spec hok hb (by omega), if_pos (by rw [entriesBytes_length]; omega),
        List.getLast?_eq_getElem?]
      have hg : es[es.length - 1]? = some es[es.length - 1] := List.getElem?_eq_getElem (by omega)
      rw [hg]
      have hm := hlt _ (List.getElem_mem (by omega : es.length - 1 < es.length))
      rw [entryAt_entries hg hm.2.1 hm.2.2]
  obtain ⟨n, hn, hnC, hns⟩ : ∃ n, (es.getLast?.map (fun e => e.1 + e.2)).getD 0 = n ∧ n ≤ C.length ∧
      ∀ e ∈ es, e.1 + e.2 ≤ n := by
    cases hl : es.getLast? with
    | none =>
      have : es = [] := List.getLast?_eq_none_iff.mp hl
      subst this
      exact ⟨0, rfl, by omega, by simp⟩
    | some l =>
      refine ⟨l.1 + l.2, rfl, (hrecs.mem (List.mem_of_getLast? hl)).2, ?_⟩
      intro e he
      exact hrecs.last_end he hl
  have hlenn : (C.take n).length = n := by rw [List.length_take]; omega
  obtain ⟨g1, e1, hok1, hr1, hb1, hf1, hw1⟩ := new_file (hdata.take n) w (some n) (by simp [hnC])
  unfold DB.openDB
  simp only [ea, hsz]
  rw [if_neg (by omega)]
  simp only [hlast, hn]
  rw [usize_ok (by omega)]
  simp only [Appender.new, e1]
  refine ⟨_, es, C.take n, rfl, ⟨hok, hb, hsz, hok1, hok1.len_eq, ?_, by omega, ?_, ?_⟩, ⟨hr, hr1⟩, ?_,
    hw1, hw, hf1, hf⟩
  · apply (hrecs.take hns).bounds
    intro b hbm e he
    have := hb1 b hbm
    have := hns e he
    omega
  · intro f' hf'
    simp only at hf'
    rw [hf] at hf'; cases hf'
    exact ⟨ht, h16⟩
  · simp [hf, hf1]
  · omega

/-- Opening in memory. -/
theorem memory_spec (p : Params) : ∃ db, DB.memory p = .ok db ∧ DBInv db [] [] [] ∧ DBRoom db ∧
    db.data.g.writable = true ∧ db.idx.g.writable = true ∧ db.idx.g.file = none := by
  refine ⟨⟨⟨⟨none, true, [], [], none⟩, 0⟩, ⟨⟨none, true, [], [], none⟩, 0⟩⟩, ?_, ?_, ?_, rfl, rfl, rfl⟩
  · rfl
  · obtain ⟨g, e, hok, _, _, _, _⟩ := new_memory true none
    cases e
    refine ⟨hok, by simp [GM.bounds, GM.chunks, globalBounds], rfl, hok, rfl, ⟨.nil, .nil⟩, by norm_num,
      ?_, rfl⟩
    intro f hf; cases hf
  · obtain ⟨g, e, _, hr, _, _, _⟩ := new_memory true none
    cases e
    exact ⟨hr, hr⟩

/-- What is on disk under an open database. -/
theorem DBInv.disk {db : DB} {es : List (Nat × Nat)} {C : List UInt8} {log : List (List UInt8)}
    (h : DBInv db es C log) {fd fi : Blob} (hd : db.data.g.file = some fd) (hi : db.idx.g.file = some fi)
    (hlt : fi.len < 2 ^ 64) : DiskOK fd fi log C.length := by
  refine ⟨⟨es, C, h.idxOK.file fi hi, (h.tail fi hi).1, (h.tail fi hi).2, h.dataOK.file fd hd, ?_, h.fits,
    le_refl _⟩, hlt⟩
  exact h.recs.bounds (by simp)

/-- What is on disk after a clean close. -/
theorem DBInv.disk_closed {db : DB} {es : List (Nat × Nat)} {C : List UInt8} {log : List (List UInt8)}
    (h : DBInv db es C log) {fd fi : Blob} (hd : db.data.g.file = some fd) (hi : db.idx.g.file = some fi)
    (hwd : db.data.g.writable = true) (hwi : db.idx.g.writable = true) :
    db.drop.data.g.file = some (fd.setLen C.length) ∧
    db.drop.idx.g.file = some (fi.setLen (16 * es.length)) ∧
    DiskOK (fd.setLen C.length) (fi.setLen (16 * es.length)) log C.length := by
  unfold DB.drop
  rw [shrink_file h.dataOK hd hwd, shrink_file h.idxOK hi hwi]
  refine ⟨rfl, by simp, ⟨⟨es, C, ?_, ?_, ?_, ?_, ?_, h.fits, le_refl _⟩, ?_⟩⟩
  · exact (h.idxOK.file fi hi).setLen (by simp)
  · exact (h.tail fi hi).1.setLen _
  · simp
  · exact (h.dataOK.file fd hd).setLen (le_refl _)
  · exact h.recs.bounds (by simp)
  · have := h.recs.count_le
    have := h.fits
    simp only [Blob.setLen_len]; omega

end Verif.Fraos
