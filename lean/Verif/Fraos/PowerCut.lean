import Verif.Fraos.Crash

/-!
# Power failures

When the machine loses power, what survives is what the system had written to the disk. After
`mmap.flush` has returned (growable_mmap.rs:188-191, in every append, for the data and then for the
index) the stores made before it are there. Of the stores made after it, every page of a file may have
been written at any time or not at all, in any order, and a new length of a file may be there or not. A
page is written as it is at one moment, so of the index words in one page, stored in order
(seqno.rs:59-64), the first few are there. Pages are 4096 bytes.
-/

namespace Verif.Fraos

/-- What the data file may look like when power fails while `bs` is being appended to it,
growable_mmap.rs:101-198: whatever was there before is there, the rest may be anything. -/
inductive DataTorn (p : Params) (g : GM) (bs : List UInt8) : Blob → Prop
  | before {f : Blob} : g.file = some f → DataTorn p g bs f
  | storing {at_ : Nat} {g1 : GM} {a : Active} {o : Nat} {f0 f1 f : Blob} :
      g.makeRoom p Faults.none bs.length = (.ok at_, g1) → g1.active = some a → a.mem = .file o →
      g.file = some f0 → g1.file = some f1 → (f.len = f0.len ∨ f.len = f1.len) →
      (∀ i, i < o + at_ → f.get i = f0.get i) → DataTorn p g bs f

/-- What the index file may look like when power fails while entries are being appended to it: page `q`
was last written to disk when `ks q` words had been stored. -/
inductive IdxTorn (p : Params) (g : GM) (new : List (Nat × Nat)) : Blob → Prop
  | before {f : Blob} : g.file = some f → IdxTorn p g new f
  /-- the new length is on disk -/
  | storing {at_ : Nat} {g1 : GM} {a : Active} {o : Nat} {f1 f : Blob} {ks : Nat → Nat} :
      g.makeRoom p Faults.none (16 * new.length) = (.ok at_, g1) → g1.active = some a →
      a.mem = .file o → g1.file = some f1 → f.len = f1.len →
      (∀ i, i < f.len →
        f.get i = (f1.write (o + at_) ((entriesBytes new).take (8 * ks (i / 4096)))).get i) →
      IdxTorn p g new f
  /-- the old length is on disk -/
  | short {at_ : Nat} {g1 : GM} {a : Active} {o : Nat} {f0 f : Blob} {ks : Nat → Nat} :
      g.makeRoom p Faults.none (16 * new.length) = (.ok at_, g1) → g1.active = some a →
      a.mem = .file o → g.file = some f0 → f.len = f0.len →
      (∀ i, i < f.len →
        f.get i = (f0.write (o + at_) ((entriesBytes new).take (8 * ks (i / 4096)))).get i) →
      IdxTorn p g new f

/-- The files a power failure may leave while `batch` is being appended. -/
inductive PowerCut (p : Params) (db : DB) (batch : List (List UInt8)) : Blob → Blob → Prop
  /-- no effect yet, or no call running, or the handle is being dropped: either file may have been cut
  (database.rs:164-169), and either cut may have reached the disk -/
  | idle {fd fi : Blob} : (db.data.g.file = some fd ∨ db.drop.data.g.file = some fd) →
      (db.idx.g.file = some fi ∨ db.drop.idx.g.file = some fi) → PowerCut p db batch fd fi
  /-- in the data file -/
  | data {fd fi : Blob} : batch ≠ [] → (∀ r ∈ batch, r ≠ []) → DataTorn p db.data.g batch.flatten fd →
      db.idx.g.file = some fi → PowerCut p db batch fd fi
  /-- in the index file, the data file has been flushed -/
  | index {d : Appender} {fd fi : Blob} : batch ≠ [] → (∀ r ∈ batch, r ≠ []) →
      flatAppend p db.data Faults.none batch = (.ok (), d) → d.g.file = some fd →
      IdxTorn p db.idx.g (entriesFrom db.data.size batch) fi → PowerCut p db batch fd fi

/-- The index entries of `m` records after the first `n` lie in one page. -/
def OnePage (n m : Nat) : Prop := ∀ i j, n ≤ i → i < n + m → n ≤ j → j < n + m → i / 256 = j / 256

/-- States of databases on disk, with the records they should hold, over all histories of calls, deaths
of the process and power failures, when no batch that power failed on had entries in two pages. -/
inductive Endured (p : Params) : DB → List (List UInt8) → Nat → Prop
  | fresh {db : DB} : fresh p true = .ok db → Endured p db [] 0
  | call {db : DB} {log : List (List UInt8)} {used : Nat} (op : Op) : Endured p db log used → op.small →
      Endured p (step p db op).2 (specStep true log op).2 (used + op.bytes)
  | kill {db db' : DB} {log batch : List (List UInt8)} {used j : Nat} {fd fi : Blob} :
      Endured p db log used → Crash p db batch fd fi j →
      DB.openDB p (some fd) (some fi) true = .ok db' →
      Endured p db' (log ++ batch.take j) (used + (batch.map List.length).sum)
  | power {db db' : DB} {log batch : List (List UInt8)} {used : Nat} {fd fi : Blob} :
      Endured p db log used → PowerCut p db batch fd fi → OnePage log.length batch.length →
      DB.openDB p (some fd) (some fi) true = .ok db' →
      Endured p db' (log ++ batch.take (db'.len - log.length)) (used + (batch.map List.length).sum)

/-! ### The index file -/

/-- Entry `i` of an index file. -/
def fileEntry (f : Blob) (i : Nat) : Nat × Nat :=
  (fromLe (f.read (16 * i) 8), fromLe (f.read (16 * i + 8) 8))

theorem fromLe_zero {f : Blob} {o : Nat} (h : ∀ k, k < 8 → o + k < f.len → f.get (o + k) = 0) :
    fromLe (f.read o 8) = 0 := by
  have e : f.read o 8 = (List.range 8).map (fun _ => (0 : UInt8)) := by
    unfold Blob.read
    apply List.map_congr_left
    intro k hk
    rw [List.mem_range] at hk
    split
    · exact h _ (by omega) (by omega)
    · rfl
  rw [e]; rfl

/-- The entries of an index file that power failed on: those from before are there, and any other is
that of the batch or has length zero. -/
structure Torn (f : Blob) (es new : List (Nat × Nat)) : Prop where
  len : 16 * es.length ≤ f.len
  old : ∀ i (h : i < es.length), fileEntry f i = es[i]
  dvd : 16 ∣ f.len
  rest : ∀ i, es.length ≤ i → 16 * i + 16 ≤ f.len →
    (fileEntry f i).2 = 0 ∨ new[i - es.length]? = some (fileEntry f i)

theorem FileHas.fileEntry {f : Blob} {es : List (Nat × Nat)} (h : FileHas f (entriesBytes es))
    (hes : ∀ e ∈ es, e.1 < 2 ^ 64 ∧ e.2 < 2 ^ 64) (i : Nat) (hi : i < es.length) :
    fileEntry f i = es[i] := by
  have hg : es[i]? = some es[i] := List.getElem?_eq_getElem hi
  have hm := hes _ (List.getElem_mem hi)
  have h1 := h.entryAt (i := i) (by rw [entriesBytes_length]; omega)
  rw [entryAt_entries hg hm.1 hm.2] at h1
  exact h1.symm

/-- Pages of different age. -/
structure Mixed (b f : Blob) (n : Nat) (new : List (Nat × Nat)) (ks : Nat → Nat) : Prop where
  len : f.len = b.len
  get : ∀ i, i < f.len →
    f.get i = (b.write (16 * n) ((entriesBytes new).take (8 * ks (i / 4096)))).get i

theorem Mixed.old {b f : Blob} {es new : List (Nat × Nat)} {ks : Nat → Nat}
    (h : Mixed b f es.length new ks) (hF : FileHas b (entriesBytes es)) :
    FileHas f (entriesBytes es) := by
  refine ⟨by rw [h.len]; exact hF.1, ?_⟩
  intro i hi
  have h1 := hF.1
  have h2 := h.len
  rw [h.get i (by omega), Blob.write_get_lt (by rw [entriesBytes_length] at hi; exact hi)]
  exact hF.2 i hi

/-- A byte from before the batch. -/
theorem Mixed.stale {b f : Blob} {n : Nat} {new : List (Nat × Nat)} {ks : Nat → Nat}
    (h : Mixed b f n new ks) {i : Nat} (hi : i < f.len)
    (hk : 16 * n + min (8 * ks (i / 4096)) (16 * new.length) ≤ i) : f.get i = b.get i := by
  rw [h.get i hi, Blob.write_get_ge]
  rw [List.length_take, entriesBytes_length]
  exact hk

/-- A byte of the batch. -/
theorem Mixed.stored {b f : Blob} {n : Nat} {new : List (Nat × Nat)} {ks : Nat → Nat}
    (h : Mixed b f n new ks) {i : Nat} (hi : 16 * n + i < f.len) (hk : i < 8 * ks ((16 * n + i) / 4096))
    (hn : i < 16 * new.length) : (entriesBytes new)[i]? = some (f.get (16 * n + i)) := by
  have hg : (entriesBytes new)[i]? = some ((entriesBytes new)[i]'(by rw [entriesBytes_length]; exact hn)) :=
    List.getElem?_eq_getElem _
  rw [h.get _ hi, hg]
  rw [Blob.write_get_of_mem (x := (entriesBytes new)[i]'(by rw [entriesBytes_length]; exact hn))]
  · rw [List.getElem?_take_of_lt hk, hg]
  · rw [← h.len]; exact hi

/-- An entry whose page was written after it had been stored. -/
theorem Mixed.full {b f : Blob} {n : Nat} {new : List (Nat × Nat)} {ks : Nat → Nat}
    (h : Mixed b f n new ks) (hlt : ∀ e ∈ new, e.1 < 2 ^ 64 ∧ e.2 < 2 ^ 64) {i : Nat} (h1 : n ≤ i)
    (h2 : 16 * i + 16 ≤ f.len) (hk : 2 * (i - n) + 2 ≤ ks (i / 256)) (hi : i - n < new.length) :
    new[i - n]? = some (fileEntry f i) := by
  have hpage : ∀ k, k < 16 → (16 * i + k) / 4096 = i / 256 := by intro k hk; omega
  have hg : new[i - n]? = some new[i - n] := List.getElem?_eq_getElem hi
  have hm := hlt _ (List.getElem_mem hi)
  have hbyte : ∀ k, k < 16 →
      (entriesBytes new)[16 * (i - n) + k]? = some (f.get (16 * i + k)) := by
    intro k hk
    have := h.stored (i := 16 * (i - n) + k) (by omega)
      (by rw [show 16 * n + (16 * (i - n) + k) = 16 * i + k by omega, hpage k hk]; omega)
      (by omega)
    rw [this]
    congr 2; omega
  have e1 : f.read (16 * i) 8 = ((entriesBytes new).drop (16 * (i - n))).take 8 :=
    Blob.read_eq (by rw [entriesBytes_length]; omega) (by omega) (fun k hk => hbyte k (by omega))
  have e2 : f.read (16 * i + 8) 8 = ((entriesBytes new).drop (16 * (i - n) + 8)).take 8 :=
    Blob.read_eq (by rw [entriesBytes_length]; omega) (by omega) (fun k hk => by
      have := hbyte (8 + k) (by omega)
      rw [show 16 * (i - n) + 8 + k = 16 * (i - n) + (8 + k) by omega,
        show 16 * i + 8 + k = 16 * i + (8 + k) by omega]
      exact this)
  have := entryAt_entries hg hm.1 hm.2
  unfold entryAt at this
  unfold fileEntry
  rw [e1, e2, this, hg]

/-- An entry whose page was not written after its length had been stored. -/
theorem Mixed.hole {b f : Blob} {n : Nat} {new : List (Nat × Nat)} {ks : Nat → Nat}
    (h : Mixed b f n new ks) (ht : TailZ b (16 * n)) {i : Nat} (h1 : n ≤ i)
    (hk : ks (i / 256) < 2 * (i - n) + 2 ∨ new.length ≤ i - n) : (fileEntry f i).2 = 0 := by
  refine fromLe_zero (f := f) ?_
  intro k hk hl
  rw [h.stale hl (by rw [show (16 * i + 8 + k) / 4096 = i / 256 by omega]; omega)]
  exact ht _ (by omega) (by rw [← h.len]; exact hl) (by omega)

theorem Mixed.torn {b f : Blob} {es new : List (Nat × Nat)} {ks : Nat → Nat}
    (h : Mixed b f es.length new ks) (hF : FileHas b (entriesBytes es)) (ht : TailZ b (16 * es.length))
    (h16 : 16 ∣ b.len) (hes : ∀ e ∈ es, e.1 < 2 ^ 64 ∧ e.2 < 2 ^ 64)
    (hlt : ∀ e ∈ new, e.1 < 2 ^ 64 ∧ e.2 < 2 ^ 64) : Torn f es new := by
  refine ⟨?_, (h.old hF).fileEntry hes, by rw [h.len]; exact h16, ?_⟩
  · have := (h.old hF).1
    rwa [entriesBytes_length] at this
  · intro i h1 h2
    by_cases hc : 2 * (i - es.length) + 2 ≤ ks (i / 256) ∧ i - es.length < new.length
    · exact .inr (h.full hlt h1 h2 hc.1 hc.2)
    · exact .inl (h.hole ht h1 (by omega))

/-- When all entries of the batch are in one page, the file holds the first few of them. -/
theorem Mixed.one {b f : Blob} {es new : List (Nat × Nat)} {ks : Nat → Nat}
    (h : Mixed b f es.length new ks) (hF : FileHas b (entriesBytes es)) (ht : TailZ b (16 * es.length))
    (h16 : 16 ∣ b.len) (hone : OnePage es.length new.length) :
    ∃ j, j ≤ new.length ∧ FileHas f (entriesBytes (es ++ new.take j)) ∧
      TailZ f (16 * (es ++ new.take j).length) := by
  obtain ⟨q, hq⟩ := h16
  have hlen := h.len
  have hFl := hF.1
  rw [entriesBytes_length] at hFl
  -- the number of entries there
  have key : ∀ i, es.length ≤ i → i < es.length + new.length →
      ks (16 * i / 4096) = ks (16 * es.length / 4096) := by
    intro i h1 h2
    have := hone i es.length h1 h2 (le_refl _) (by omega)
    rw [show 16 * i / 4096 = i / 256 by omega, show 16 * es.length / 4096 = es.length / 256 by omega, this]
  generalize hK : ks (16 * es.length / 4096) = K at key
  refine ⟨min (min (K / 2) new.length) (q - es.length), by omega, ?_, ?_⟩
  · generalize hj : min (min (K / 2) new.length) (q - es.length) = j
    have hjl : (new.take j).length = j := by rw [List.length_take]; omega
    rw [entriesBytes_append]
    refine ⟨by rw [List.length_append, entriesBytes_length, entriesBytes_length, hjl]; omega, ?_⟩
    intro i hi
    rw [List.length_append, entriesBytes_length, entriesBytes_length, hjl] at hi
    by_cases hc : i < 16 * es.length
    · rw [List.getElem?_append_left (by rw [entriesBytes_length]; exact hc)]
      exact (h.old hF).2 i (by rw [entriesBytes_length]; exact hc)
    · rw [List.getElem?_append_right (by rw [entriesBytes_length]; omega), entriesBytes_length]
      have hsplit : entriesBytes new = entriesBytes (new.take j) ++ entriesBytes (new.drop j) := by
        rw [← entriesBytes_append, List.take_append_drop]
      have hpre : (entriesBytes (new.take j))[i - 16 * es.length]? =
          (entriesBytes new)[i - 16 * es.length]? := by
        rw [hsplit, List.getElem?_append_left (by rw [entriesBytes_length, hjl]; omega)]
      rw [hpre]
      have hkk := key (i / 16) (by omega) (by omega)
      have := h.stored (i := i - 16 * es.length) (by omega) (by
        rw [show 16 * es.length + (i - 16 * es.length) = i by omega,
          show i / 4096 = 16 * (i / 16) / 4096 by omega, hkk]
        omega) (by omega)
      rw [this]
      congr 2; omega
  · intro i h1 h2 h3
    rw [List.length_append, List.length_take] at h1
    rw [h.stale h2 (by
      by_cases hin : i / 16 < es.length + new.length
      · have hkk := key (i / 16) (by omega) hin
        rw [show i / 4096 = 16 * (i / 16) / 4096 by omega, hkk]
        omega
      · omega)]
    exact ht i (by omega) (by rw [← hlen]; exact h2) h3

theorem IdxTorn.mixed {p : Params} (hp : 16 ∣ p.minMmap) {g : GM} {es new : List (Nat × Nat)}
    (h : GMOK g (entriesBytes es)) (hr : Room g)
    (ht : ∀ f, g.file = some f → TailZ f (16 * es.length) ∧ 16 ∣ f.len) (hnew : new ≠ [])
    {B : Nat} (hB : ∀ f, g.file = some f → f.len ≤ B)
    (hB2 : 16 * (es.length + new.length) + p.minMmap ≤ B)
    {f : Blob} (hc : IdxTorn p g new f) :
    ∃ b ks, Mixed b f es.length new ks ∧ FileHas b (entriesBytes es) ∧ TailZ b (16 * es.length) ∧
      16 ∣ b.len ∧ b.len ≤ B := by
  have hpos : 0 < 16 * new.length := by have := List.length_pos_of_ne_nil hnew; omega
  have hk : 16 ∣ g.newSize p (16 * new.length) := newSize_dvd hp ⟨_, rfl⟩
  have hle := newSize_le p g (16 * new.length)
  have hat : ∀ at_ g1 a o, g.makeRoom p Faults.none (16 * new.length) = (.ok at_, g1) →
      g1.active = some a → a.mem = .file o → o + at_ = 16 * es.length ∧
        Stretch (16 * es.length) (g.newSize p (16 * new.length)) g.file g1.file := by
    intro at_ g1 a o hm ha hmem
    rcases makeRoom_spec (p := p) h hr (ft := Faults.none) rfl hpos with ⟨a1, g1', e, hrd⟩ | ⟨e, g1', e1, _⟩
    · rw [hm] at e; cases e
      obtain ⟨a', ha', hst, _, hlen, hmo, _⟩ := hrd.ex
      rw [ha] at ha'; cases ha'
      have hs := hrd.file
      rw [entriesBytes_length] at hs hst
      rw [hmem] at hmo
      have := hmo.2
      exact ⟨by omega, hs⟩
    · rw [hm] at e1; cases e1
  cases hc with
  | before hf =>
    refine ⟨f, fun _ => 0, ⟨rfl, ?_⟩, h.file _ hf, (ht _ hf).1, (ht _ hf).2, hB _ hf⟩
    intro i _
    rw [Nat.mul_zero, List.take_zero]
    unfold Blob.write
    simp
  | @storing at_ g1 a o f1 _ ks hm ha hmem hf1 hl hget =>
    obtain ⟨ho, hs⟩ := hat _ _ _ _ hm ha hmem
    rw [ho] at hget
    have h1 := hs.tail ⟨_, rfl⟩ hk ht _ hf1
    have hF : FileHas f1 (entriesBytes es) := by
      rw [← entriesBytes_length] at hs
      exact hs.fileHas h.file _ hf1
    refine ⟨f1, ks, ⟨hl, hget⟩, hF, h1.1, h1.2, ?_⟩
    rcases hs.lenStep _ hf1 with h2 | ⟨b, h2, h3⟩
    · omega
    · have := hB b h2; omega
  | @short at_ g1 a o f0 _ ks hm ha hmem hf0 hl hget =>
    obtain ⟨ho, hs⟩ := hat _ _ _ _ hm ha hmem
    rw [ho] at hget
    exact ⟨f0, ks, ⟨hl, hget⟩, h.file _ hf0, (ht _ hf0).1, (ht _ hf0).2, hB _ hf0⟩

theorem DataTorn.fileHas {p : Params} {g : GM} {C bs : List UInt8} (h : GMOK g C) (hr : Room g)
    (hbs : 0 < bs.length) {f : Blob} (hc : DataTorn p g bs f) : FileHas f C := by
  cases hc with
  | before hf => exact h.file _ hf
  | @storing at_ g1 a o f0 f1 _ hm ha hmem hf0 hf1 hl hget =>
    rcases makeRoom_spec (p := p) h hr (ft := Faults.none) rfl hbs with ⟨a1, g1', e, hrd⟩ | ⟨e, g1', e1, _⟩
    · rw [hm] at e; cases e
      have hF1 := hrd.file.fileHas h.file _ hf1
      have hF0 := h.file _ hf0
      obtain ⟨a', ha', hst, _, _, hmo, _⟩ := hrd.ex
      rw [ha] at ha'; cases ha'
      rw [hmem] at hmo
      have := hmo.2
      refine ⟨by rcases hl with hl | hl <;> rw [hl]; exacts [hF0.1, hF1.1], ?_⟩
      intro i hi
      rw [hget i (by omega)]
      exact hF0.2 i hi
    · rw [hm] at e1; cases e1

/-! ### Opening -/

theorem findEndLoop_congr {at1 at2 : Nat → Except Err Nat} {len : Nat}
    (h : ∀ i, i < len → at1 i = at2 i) (fuel start stop : Nat) (hs : stop ≤ len) :
    findEndLoop at1 len fuel start stop = findEndLoop at2 len fuel start stop := by
  induction fuel generalizing start stop with
  | zero => rfl
  | succ fuel ih =>
    unfold findEndLoop
    by_cases hc : start < len - 1
    · rw [if_pos hc, if_pos hc, h _ (by omega), h ((start + stop) / 2) (by omega)]
      rw [ih start _ (by omega), ih _ stop hs]
    · rw [if_neg hc, if_neg hc]

theorem findEnd_congr {at1 at2 : Nat → Except Err Nat} {len : Nat}
    (h : ∀ i, i < len → at1 i = at2 i) (hlen : 0 < len) : findEnd at1 len = findEnd at2 len := by
  unfold findEnd
  rw [h 0 hlen, h (len - 1) (by omega), findEndLoop_congr h _ _ _ (le_refl _)]

/-- Opening an index that begins with `n` entries of non-zero length. -/
theorem idxOpen_torn {p : Params} {f : Blob} {n : Nat} (hn : 16 * n ≤ f.len) (h16 : 16 ∣ f.len)
    (hlt : f.len < 2 ^ 64) (hnz : ∀ i, i < n → (fileEntry f i).2 ≠ 0) (w : Bool) :
    ∃ a r, idxOpen p (some f) w = .ok a ∧ n ≤ r ∧ 16 * r ≤ f.len ∧
      (0 < r → (fileEntry f (r - 1)).2 ≠ 0) ∧
      (16 * r = f.len ∨ findEnd (fun i => .ok (fileEntry f i).2) (f.len / 16) = .ok r) ∧
      GMOK a.g (f.read 0 (16 * r)) ∧ Room a.g ∧
      (∀ b ∈ a.g.bounds, 16 ∣ b) ∧ a.size = 16 * r ∧ a.g.file = some f ∧ a.g.writable = w := by
  have hself := fileHas_self f
  obtain ⟨g0, e0, hok0, hr0, hb0, hf0, hw0⟩ := new_file hself w none (by simp)
  have hb16 : ∀ b ∈ g0.bounds, 16 ∣ b := by
    intro b hb
    rw [hb0 b hb]; simpa using h16
  have hlen0 : g0.len = f.len := by rw [hok0.len_eq]; simp
  obtain ⟨q, hq⟩ := h16
  have hentry : ∀ i, i < q → getEntry p ⟨g0, f.len⟩ i = .ok (some (fileEntry f i)) := by
    intro i hi
    rw [getEntry_spec (a := ⟨g0, f.len⟩) hok0 hb16 (by omega), if_pos (by simp; omega),
      hself.entryAt (by simp; omega)]
    rfl
  unfold idxOpen Appender.new
  simp only [e0]
  unfold idxLast idxLen
  simp only [hlen0]
  have hdiv : f.len / 16 = q := by omega
  rw [hdiv]
  by_cases hq0 : q = 0
  · rw [if_pos hq0]
    simp only
    refine ⟨_, 0, rfl, by omega, by omega, by omega, .inl (by omega), ?_, hr0, hb16, by simp only; omega,
      hf0, hw0⟩
    rw [hq, hq0] at hok0; exact hok0
  · rw [if_neg hq0, hentry (q - 1) (by omega)]
    simp only
    by_cases hc : (fileEntry f (q - 1)).2 = 0
    · rw [if_pos hc]
      have hat : ∀ i, i < q → lengthAt p ⟨g0, f.len⟩ i = .ok (fileEntry f i).2 := by
        intro i hi
        unfold lengthAt
        rw [hentry i hi]
      obtain ⟨r, e, h1, h2, h3⟩ := findEnd_spec (L := fun i => (fileEntry f i).2) hat (by omega)
      have hrq : r < q := by
        by_contra hcon
        have : r = q := by omega
        subst this
        exact h3 (by omega) hc
      rw [e]
      simp only
      have hF : FileHas f (f.read 0 (16 * r)) := by
        have := hself.take (16 * r)
        rw [hself.read (by simp; omega), List.drop_zero]
        exact this
      obtain ⟨g1, e1, hok1, hr1, hb1, hf1, hw1⟩ := new_file hF w (some (16 * r)) (by simp)
      simp only [e1]
      refine ⟨_, r, rfl, ?_, by omega, h3, .inr ?_, hok1, hr1, ?_, ?_, hf1, hw1⟩
      · by_contra hcon
        exact hnz r (by omega) (h2 hrq)
      · rw [← e]
        exact findEnd_congr (fun i hi => (hat i hi).symm) (by omega)
      · intro b hb
        rw [hb1 b hb, Blob.read_length]; exact ⟨_, rfl⟩
      · simp only; rw [hok1.len_eq, Blob.read_length]
    · rw [if_neg hc]
      refine ⟨_, q, rfl, by omega, by omega, fun _ => hc, .inl (by omega), ?_, hr0, hb16, by simp only; omega,
        hf0, hw0⟩
      rw [hq] at hok0; exact hok0

/-- What is in an index file that power failed on. -/
theorem Torn.entry {f : Blob} {es new : List (Nat × Nat)} (h : Torn f es new) {i : Nat}
    (hi : 16 * i + 16 ≤ f.len) (hz : (fileEntry f i).2 ≠ 0) :
    (es ++ new)[i]? = some (fileEntry f i) := by
  by_cases hc : i < es.length
  · rw [List.getElem?_append_left hc, List.getElem?_eq_getElem hc, h.old i hc]
  · rw [List.getElem?_append_right (by omega)]
    rcases h.rest i (by omega) hi with h1 | h1
    · exact absurd h1 hz
    · exact h1

/-- A database opened after power failed: `r` entries, `n` bytes of data. -/
structure Opened (p : Params) (db : DB) (fd fi : Blob) (C : List UInt8) (all : List (List UInt8))
    (r n : Nat) : Prop where
  len : db.len = r
  fits : 16 * r ≤ fi.len
  last : 0 < r → (fileEntry fi (r - 1)).2 ≠ 0
  stop : 16 * r = fi.len ∨ findEnd (fun i => .ok (fileEntry fi i).2) (fi.len / 16) = .ok r
  there : ∀ i, i < r → (fileEntry fi i).2 ≠ 0 → db.get p i = .ok all[i]?
  gone : ∀ i, i < r → (fileEntry fi i).2 = 0 → db.get p i = .ok (some []) ∨ db.get p i = .ok none
  none_ : ∀ i, r ≤ i → i < 2 ^ 60 → db.get p i = .ok none
  idxOK : GMOK db.idx.g (fi.read 0 (16 * r))
  idxSize : db.idx.size = 16 * r
  dataOK : GMOK db.data.g (C.take n)
  dataSize : db.data.size = n
  short : n ≤ C.length
  room : DBRoom db
  wd : db.data.g.writable = true
  wi : db.idx.g.writable = true
  file : db.idx.g.file = some fi

/-- Opening a directory that power failed on. -/
theorem open_torn {p : Params} {fd fi : Blob} {es new : List (Nat × Nat)} {C : List UInt8}
    {log batch : List (List UInt8)} (h : Torn fi es new) (hlt : fi.len < 2 ^ 64) (hd : FileHas fd C)
    (hrecs : Recs C [] (es ++ new) (log ++ batch)) (hl : es.length = log.length)
    (hfit : C.length < 2 ^ 60) :
    ∃ db r n, DB.openDB p (some fd) (some fi) true = .ok db ∧ log.length ≤ r ∧
      r ≤ log.length + batch.length ∧ Opened p db fd fi C (log ++ batch) r n ∧
      (∀ e, (es ++ new)[r - 1]? = some e → 0 < r → n = e.1 + e.2) ∧
      (∀ i, i < log.length → (fileEntry fi i).2 ≠ 0) := by
  have hm : ∀ e ∈ es ++ new, 0 < e.2 ∧ e.1 < 2 ^ 64 ∧ e.2 < 2 ^ 64 ∧ e.1 + e.2 ≤ C.length := by
    intro e he
    have := hrecs.mem he
    omega
  have hlog := hrecs.length
  rw [List.length_append, List.length_append] at hlog
  have hold := h.len
  have hnz : ∀ i, i < es.length → (fileEntry fi i).2 ≠ 0 := by
    intro i hi
    rw [h.old i hi]
    have := hm _ (List.mem_append_left _ (List.getElem_mem hi))
    omega
  obtain ⟨a, r, ea, hr1, hr2, hr3, hr4, hok, hroom, hb, hsz, hf, hw⟩ :=
    idxOpen_torn (p := p) hold h.dvd hlt hnz true
  have hq : 16 * r < 2 ^ 64 := by omega
  have hent : ∀ i, i < r → getEntry p a i = .ok (some (fileEntry fi i)) := by
    intro i hi
    have hF : FileHas fi (fi.read 0 (16 * r)) := hok.file _ hf
    rw [getEntry_spec hok hb (by omega), if_pos (by simp; omega), hF.entryAt (by simp; omega)]
    rfl
  have hin : ∀ i, i < r → (fileEntry fi i).2 ≠ 0 → (es ++ new)[i]? = some (fileEntry fi i) :=
    fun i hi hz => h.entry (by omega) hz
  have hlast : idxLast p a = .ok (if r = 0 then none else some (fileEntry fi (r - 1))) := by
    unfold idxLast idxLen
    rw [hsz, show 16 * r / 16 = r by omega]
    by_cases hc : r = 0
    · rw [if_pos hc, if_pos hc]
    · rw [if_neg hc, if_neg hc, hent _ (by omega)]
  have hrb : r ≤ log.length + batch.length := by
    by_contra hc
    have := hin (r - 1) (by omega) (hr3 (by omega))
    rw [List.getElem?_eq_none (by rw [List.length_append]; omega)] at this
    cases this
  -- the length of the data
  obtain ⟨n, hn, hnC, hns, hne⟩ : ∃ n,
      ((if r = 0 then none else some (fileEntry fi (r - 1))).map (fun e => e.1 + e.2)).getD 0 = n ∧
      n ≤ C.length ∧ (∀ i, i < r → ∀ e, (es ++ new)[i]? = some e → e.1 + e.2 ≤ n) ∧
      (∀ e, (es ++ new)[r - 1]? = some e → 0 < r → n = e.1 + e.2) := by
    by_cases hc : r = 0
    · exact ⟨0, by rw [if_pos hc]; rfl, by omega, by omega, by omega⟩
    · have hg := hin (r - 1) (by omega) (hr3 (by omega))
      refine ⟨(fileEntry fi (r - 1)).1 + (fileEntry fi (r - 1)).2, by rw [if_neg hc]; rfl,
        (hm _ (List.mem_of_getElem? hg)).2.2.2, ?_, ?_⟩
      · intro i hi e he
        by_cases hir : i = r - 1
        · rw [hir, hg] at he; rw [← Option.some.inj he]
        · obtain ⟨h1, e1⟩ := List.getElem?_eq_some_iff.mp he
          obtain ⟨h2, e2⟩ := List.getElem?_eq_some_iff.mp hg
          have := List.pairwise_iff_getElem.mp hrecs.order i (r - 1) h1 h2 (by omega)
          rw [e1, e2] at this
          omega
      · intro e he _
        rw [hg] at he; rw [← Option.some.inj he]
  have hlenn : (C.take n).length = n := by rw [List.length_take]; omega
  obtain ⟨g1, e1, hok1, hroom1, hb1, hf1, hw1⟩ := new_file (hd.take n) true (some n) (by simp [hnC])
  have hopen : DB.openDB p (some fd) (some fi) true = .ok ⟨⟨g1, g1.len⟩, a⟩ := by
    unfold DB.openDB
    simp only [ea, hsz]
    rw [if_neg (by omega)]
    simp only [hlast, hn]
    rw [usize_ok (by omega)]
    simp only [Appender.new, e1]
  refine ⟨_, r, n, hopen, by omega, hrb, ⟨?_, hr2, hr3, hr4, ?_, ?_, ?_, hok, hsz, hok1, ?_, hnC,
    ⟨hroom, hroom1⟩, hw1, hw, hf⟩, hne, fun i hi => hnz i (by omega)⟩
  · unfold DB.len idxLen
    simp only [hsz]; omega
  · intro i hi hz
    have hg := hin i hi hz
    obtain ⟨x, hx, h1, h2, h3, h4, _⟩ := forall2_getElem hrecs.each hg
    have hend := hns i hi _ hg
    unfold DB.get
    simp only [hent i hi]
    unfold getRecord
    obtain ⟨v, ev, hpos, hle, hin', _, hread⟩ := hok1.getRef_ok (a := (fileEntry fi i).1)
      (by rw [hlenn]; omega)
    have hv := hb1 _ hin'
    rw [hlenn] at hv
    simp only [ev]
    rw [if_neg (by omega), hread _ (by omega), hx]
    simp only
    rw [List.drop_take, List.take_take, Nat.min_eq_left (by omega), h4]
  · intro i hi hz
    unfold DB.get
    simp only [hent i hi]
    rw [show fileEntry fi i = ((fileEntry fi i).1, 0) from Prod.ext rfl hz]
    simp only
    unfold getRecord
    by_cases hc : (fileEntry fi i).1 < n
    · obtain ⟨v, ev, hpos, hle, hin', _, hread⟩ := hok1.getRef_ok (a := (fileEntry fi i).1)
        (by rw [hlenn]; omega)
      left
      simp only [ev]
      rw [if_neg (by omega), hread _ (by omega)]
      rfl
    · right
      rw [hok1.getRef_none (by rw [hlenn]; omega)]
  · intro i hi hlt2
    unfold DB.get
    rw [getEntry_spec hok hb (by omega), if_neg (by simp; omega)]
  · simp only
    rw [hok1.len_eq, hlenn]

/-! ### Power failures -/

/-- What a power failure leaves: the data is there, and the index has pages of different age. -/
theorem PowerCut.spec {p : Params} (hp : 16 ∣ p.minMmap) (hmin : p.minMmap < 2 ^ 62) {db : DB}
    {log batch : List (List UInt8)} {used : Nat} (h : Good p true db log used)
    (hfit : used + (batch.map List.length).sum < 2 ^ 59) {fd fi : Blob}
    (hc : PowerCut p db batch fd fi) :
    ∃ es new C log' batch' b ks, log' = log ∧ es.length = log.length ∧
      ((new = [] ∧ batch' = []) ∨ (new.length = batch.length ∧ batch' = batch)) ∧
      Mixed b fi es.length new ks ∧ FileHas b (entriesBytes es) ∧ TailZ b (16 * es.length) ∧
      16 ∣ b.len ∧ fi.len ≤ 16 * (used + (batch.map List.length).sum) + p.minMmap ∧
      FileHas fd C ∧ Recs C [] (es ++ new) (log' ++ batch') ∧
      C.length ≤ used + (batch.map List.length).sum := by
  obtain ⟨es, C, hinv, hC⟩ := h.ex
  have hll := hinv.recs.length
  have hcount := hinv.recs.count_le
  rw [← List.length_flatten] at hfit ⊢
  have triv : ∀ f : Blob, Mixed f f es.length [] (fun _ => 0) := by
    intro f
    refine ⟨rfl, ?_⟩
    intro i _
    rw [Nat.mul_zero, List.take_zero]
    unfold Blob.write
    simp
  obtain ⟨f0, hf0⟩ := Option.isSome_iff_exists.mp h.mode
  cases hc with
  | idle hd hi =>
    obtain ⟨f1, hf1⟩ := Option.isSome_iff_exists.mp (hinv.mode.trans h.mode)
    obtain ⟨e1, e2, _⟩ := hinv.disk_closed hf1 hf0 h.wd h.wi
    have hb0 := h.idxLen _ hf0
    have hD : FileHas fd C := by
      rcases hd with hd | hd
      · exact hinv.dataOK.file _ hd
      · rw [e1] at hd; cases hd
        exact (hinv.dataOK.file _ hf1).setLen (by simp)
    have hI : FileHas fi (entriesBytes es) ∧ TailZ fi (16 * es.length) ∧ 16 ∣ fi.len ∧
        fi.len ≤ 16 * (used + batch.flatten.length) + p.minMmap := by
      rcases hi with hi | hi
      · rw [hf0] at hi; cases hi
        exact ⟨hinv.idxOK.file _ hf0, (hinv.tail _ hf0).1, (hinv.tail _ hf0).2, by omega⟩
      · rw [e2] at hi; cases hi
        refine ⟨(hinv.idxOK.file _ hf0).setLen (by simp), (hinv.tail _ hf0).1.setLen _, by simp, ?_⟩
        simp only [Blob.setLen_len]; omega
    refine ⟨es, [], C, log, [], fi, fun _ => 0, rfl, hll, .inl ⟨rfl, rfl⟩, triv fi, hI.1, hI.2.1, hI.2.2.1,
      hI.2.2.2, hD, ?_, by omega⟩
    rw [List.append_nil, List.append_nil]
    exact hinv.recs.bounds (by simp)
  | data hb hne hcut hi =>
    have hpos : 0 < batch.flatten.length := by
      cases batch with
      | nil => exact absurd rfl hb
      | cons r rs =>
        have := List.length_pos_of_ne_nil (hne r (by simp))
        simp only [List.flatten_cons, List.length_append]; omega
    have := h.idxLen _ hi
    refine ⟨es, [], C, log, [], fi, fun _ => 0, rfl, hll, .inl ⟨rfl, rfl⟩, triv fi, hinv.idxOK.file _ hi,
      (hinv.tail _ hi).1, (hinv.tail _ hi).2, by omega,
      hcut.fileHas hinv.dataOK h.room.2 hpos, ?_, by omega⟩
    rw [List.append_nil, List.append_nil]
    exact hinv.recs.bounds (by simp)
  | @index d _ _ hb hne hflat hd hcut =>
    rcases flatAppend_spec (p := p) hinv.dataOK h.room.2 Faults.none_early hb hne with
      ⟨g1, e, hok, hroom, hbd, hw, hmode⟩ | ⟨er, g1, e, hu, he⟩
    · rw [hflat] at e
      simp only [Prod.mk.injEq, true_and] at e
      subst e
      have hrn : Recs (C ++ batch.flatten) [] (entriesFrom C.length batch) batch :=
        entriesFrom_recs C batch hne (by simp)
      have hro : Recs (C ++ batch.flatten) [] es log := hinv.recs.mono _ (by simp)
      have hnew : entriesFrom db.data.size batch ≠ [] := by
        intro h0
        have := entriesFrom_length db.data.size batch
        rw [h0] at this
        have := List.length_pos_of_ne_nil hb
        simp_all
      have hra := hro.append hrn (fun e he => (hinv.recs.mem he).2)
        (fun e he => (entriesFrom_ge he).1)
      have hcn := hra.count_le
      rw [List.length_append, List.length_append, entriesFrom_length] at hcn
      rw [hinv.dataSize] at hcut hnew
      obtain ⟨b, ks, hmix, hF, hT, h16, hlen⟩ := hcut.mixed hp hinv.idxOK h.room.1 hinv.tail hnew
        (B := 16 * (used + batch.flatten.length) + p.minMmap)
        (fun f hf => by have := h.idxLen f hf; omega) (by rw [entriesFrom_length]; omega)
      exact ⟨es, _, C ++ batch.flatten, log, batch, b, ks, rfl, hll,
        .inr ⟨entriesFrom_length _ _, rfl⟩, hmix, hF, hT, h16, by rw [hmix.len]; exact hlen,
        hok.file _ hd, hra, by rw [List.length_append]; omega⟩
    · rw [hflat] at e; cases e

/-- With all entries of the batch in one page, a power failure leaves the acknowledged records and the
first few of the batch. -/
theorem PowerCut.disk {p : Params} (hp : 16 ∣ p.minMmap) (hmin : p.minMmap < 2 ^ 62) {db : DB}
    {log batch : List (List UInt8)} {used : Nat} (h : Good p true db log used)
    (hfit : used + (batch.map List.length).sum < 2 ^ 59) {fd fi : Blob}
    (hc : PowerCut p db batch fd fi) (hone : OnePage log.length batch.length) :
    ∃ j, j ≤ batch.length ∧
      DiskOK fd fi (log ++ batch.take j) (used + (batch.map List.length).sum) ∧
      fi.len ≤ 16 * (used + (batch.map List.length).sum) + p.minMmap := by
  obtain ⟨es, new, C, log', batch', b, ks, rfl, hll, hnb, hmix, hF, hT, h16, hlen, hD, hR, hCl⟩ :=
    hc.spec hp hmin h hfit
  rcases hnb with ⟨rfl, rfl⟩ | ⟨hn, rfl⟩
  · obtain ⟨j, hj, h1, h2⟩ := hmix.one hF hT h16 (by intro i k a b c d; simp at b; omega)
    simp only [List.take_nil, List.append_nil] at h1 h2 hR
    refine ⟨0, by omega, ⟨⟨es, C, h1, h2, by rw [hmix.len]; exact h16, hD, ?_, by omega, hCl⟩, by omega⟩, hlen⟩
    rw [List.take_zero, List.append_nil]; exact hR
  · obtain ⟨j, hj, h1, h2⟩ := hmix.one hF hT h16 (by rw [hll, hn]; exact hone)
    refine ⟨j, by omega, ⟨⟨_, C, h1, h2, by rw [hmix.len]; exact h16, hD, ?_, by omega, hCl⟩, by omega⟩, hlen⟩
    have := hR.takeLog (es.length + j)
    rw [List.take_length_add_append, hll, List.take_length_add_append] at this
    exact this

theorem Endured.good {p : Params} (hp : 16 ∣ p.minMmap) (hm : p.minMmap < 2 ^ 62) {db : DB}
    {log : List (List UInt8)} {used : Nat} (h : Endured p db log used) (hfit : used < 2 ^ 59) :
    Good p true db log used := by
  induction h with
  | fresh h =>
    obtain ⟨db', e, hg⟩ := fresh_good p true
    rw [h] at e; cases e
    exact hg
  | call op _ hs ih =>
    exact (step_good hp (ih (by omega)) hs (by omega)).2
  | @kill db db' log batch used j fd fi _ hc ho ih =>
    obtain ⟨hdisk, hlen⟩ := hc.disk hp hm (ih (by omega)) hfit
    obtain ⟨db1, es, C, e, hinv, hr, hle, hwd, hwi, hfd, hfi⟩ := open_spec (p := p) hdisk true
    rw [ho] at e; cases e
    exact ⟨⟨es, C, hinv, hle⟩, hr, hwd, hwi, by simp [hfi], fun f hf => by
      rw [hfi] at hf; cases hf; exact hlen⟩
  | @power db db' log batch used fd fi _ hc hone ho ih =>
    obtain ⟨j, hj, hdisk, hlen⟩ := hc.disk hp hm (ih (by omega)) hfit hone
    obtain ⟨db1, es, C, e, hinv, hr, hle, hwd, hwi, hfd, hfi⟩ := open_spec (p := p) hdisk true
    rw [ho] at e; cases e
    have hlj : db'.len - log.length = j := by
      rw [hinv.len_eq, List.length_append, List.length_take]; omega
    rw [hlj]
    exact ⟨⟨es, C, hinv, hle⟩, hr, hwd, hwi, by simp [hfi], fun f hf => by
      rw [hfi] at hf; cases hf; exact hlen⟩

/-! ### Going on -/

/-- Appending to an index whatever it holds. -/
theorem idxAppend_any {p : Params} {a : Appender} {D : List UInt8} {m : Nat}
    (h : GMOK a.g D) (hr : Room a.g) (hD : D.length = 16 * m) (hsz : a.size = 16 * m)
    (hw : a.g.writable = true) {f : Blob} (hf : a.g.file = some f) {new : List (Nat × Nat)}
    (hb : new ≠ []) (hne : ∀ e ∈ new, e.2 ≠ 0) :
    ∃ a1 f1, idxAppend p a Faults.none new = (.ok (some m), a1) ∧ a1.g.file = some (f1.write (16 * m) (entriesBytes new)) ∧
      (f1 = f ∨ f1 = f.setLen (16 * m + max (16 * new.length) p.minMmap)) ∧
      FileHas (f1.write (16 * m) (entriesBytes new)) (D ++ entriesBytes new) := by
  have hpos : 0 < (entriesBytes new).length := by
    rw [entriesBytes_length]
    have := List.length_pos_of_ne_nil hb
    omega
  have h1 : new.isEmpty = false := by cases new with
    | nil => exact absurd rfl hb
    | cons => rfl
  have h2 : new.any (fun e => e.2 == 0) = false := by
    rw [List.any_eq_false]
    intro e he
    have := hne e he
    simpa using this
  unfold idxAppend
  rw [h1, h2]
  simp only [Bool.false_eq_true, if_false]
  unfold Appender.append
  rw [← entriesBytes_length, if_neg (by omega)]
  rcases grow_spec (p := p) h hr (ft := Faults.none) rfl rfl rfl hpos (f := writeEntries new)
    (by
      intro n hn
      rw [entriesBytes_length] at hn
      unfold writeEntries; rw [if_neg (by omega)]) with
    ⟨g1, e, hok, hroom, hbd1, hw1, fs, hs, hfs⟩ | ⟨er, g1, e, hu, he⟩
  · simp only [e]
    rw [hD] at hs hfs
    have hns : a.g.newSize p (entriesBytes new).length = max (16 * new.length) p.minMmap := by
      unfold GM.newSize
      rw [hf, entriesBytes_length]
    rw [hns, hf] at hs
    have hid : idxLen a = m := by unfold idxLen; rw [hsz]; omega
    rw [hid]
    rcases hs with rfl | ⟨b, hb, rfl⟩
    · exact ⟨_, f, rfl, hfs, .inl rfl, hok.file _ hfs⟩
    · cases hb
      refine ⟨_, _, rfl, hfs, .inr (by rw [entriesBytes_length]), hok.file _ hfs⟩
  · rcases he with ⟨_, h | h⟩ | ⟨_, h⟩
    · cases h
    · rw [hw] at h; cases h
    · cases h

end Verif.Fraos
