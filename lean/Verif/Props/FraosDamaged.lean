import Verif.Props.Fraos

/-!
# C93: damaged files, and C04 at unreadable records

What opening a directory does when its two files hold arbitrary bytes, and what is read from it.
-/

namespace Verif.Props

open Verif.Fraos

/-! ### Specification -/

/-- Entry `i` of an index file: the offset and the length it names, both little-endian. -/
def entryIn (f : Blob) (i : Nat) : Nat × Nat :=
  (fromLe (f.read (16 * i) 8), fromLe (f.read (16 * i + 8) 8))

/-- `r` is a possible end of the index: it is the end of the file when the last whole entry names a
non-empty record; else entry `r` is the first of a zero length after one of a non-zero length. -/
structure IndexEnd (f : Blob) (r : Nat) : Prop where
  le : r ≤ f.len / 16
  next : r < f.len / 16 → (entryIn f r).2 = 0
  prev : 0 < r → (entryIn f (r - 1)).2 ≠ 0
  full : 0 < f.len / 16 → (entryIn f (f.len / 16 - 1)).2 ≠ 0 → r = f.len / 16

/-- Where the last of `r` records ends. -/
def lastEnd (f : Blob) (r : Nat) : Nat :=
  if r = 0 then 0 else (entryIn f (r - 1)).1 + (entryIn f (r - 1)).2

/-- What opening answers when the index ends at `r`: an error, or the length of the data in use. -/
def openAnswer (checked : Bool) (data idx : Blob) (r : Nat) : Except Err Nat :=
  if idx.len % 16 ≠ 0 ∧ r = idx.len / 16 then .error .indexDamaged
  else if 2 ^ 64 ≤ lastEnd idx r ∧ checked = true then .error .panic
  else if data.len < lastEnd idx r % 2 ^ 64 then .error .dataDamaged
  else .ok (lastEnd idx r % 2 ^ 64)

/-- What reading record `i` answers when the index ends at `r` and `used` bytes of the data are in
use. -/
def readAnswer (data idx : Blob) (r used i : Nat) : Except Err (Option (List UInt8)) :=
  if r ≤ i then .ok none
  else if used ≤ (entryIn idx i).1 then .ok none
  else if used < (entryIn idx i).1 + (entryIn idx i).2 then .error .dataLength
  else .ok (some (data.read (entryIn idx i).1 (entryIn idx i).2))

/-- What an iterator at `i` answers, and where it is afterwards. -/
def nextAnswer (data idx : Blob) (r used i : Nat) : Except Err (Option (List UInt8)) × Nat :=
  (readAnswer data idx r used i,
    match readAnswer data idx r used i with
    | .error _ => i
    | .ok _ => if r ≤ i then i else i + 1)

/-! ### Helpers -/

/-- Entries of an index mapped in one piece. -/
theorem getEntry_whole {p : Params} {a : Appender} {f : Blob} {D : List UInt8} (h : GMOK a.g D)
    (hf : FileHas f D) (hb : ∀ b ∈ a.g.bounds, b = D.length) {i : Nat} (hi : 16 * i < 2 ^ 64)
    (hD : 16 * i + 16 ≤ D.length) : getEntry p a i = .ok (some (entryIn f i)) := by
  unfold getEntry
  rw [usize_ok hi]
  simp only
  obtain ⟨v, e, hpos, hle, hin, _, hread⟩ := h.getRef_ok (a := 16 * i) (by omega)
  have hbe := hb _ hin
  simp only [e]
  rw [if_neg (by omega), hread 16 (by omega)]
  have he : entryIn f i = Verif.Fraos.entryAt D i := (hf.entryAt hD).symm
  rw [he]
  simp only [Verif.Fraos.entryAt]
  congr 3
  · rw [List.take_take]; congr 1
  · rw [List.drop_take, List.drop_drop]

theorem read_prefix {f : Blob} {n : Nat} (h : n ≤ f.len) : FileHas f (f.read 0 n) := by
  refine ⟨by simpa using h, ?_⟩
  intro i hi
  simp only [Blob.read_length] at hi
  rw [Blob.read_getElem? _ _ _ _ hi]
  have : i < f.len := by omega
  simp [this]

/-- Opening an arbitrary index file. -/
theorem idxOpen_any (p : Params) (f : Blob) (w : Bool) (hlt : f.len < 2 ^ 64) :
    ∃ r a n, IndexEnd f r ∧ idxOpen p (some f) w = .ok a ∧ GMOK a.g (f.read 0 n) ∧
      Room a.g ∧ (∀ b ∈ a.g.bounds, b = n) ∧ a.size = n ∧ a.g.file = some f ∧ a.g.writable = w ∧
      n ≤ f.len ∧ n / 16 = r ∧ (n % 16 ≠ 0 ↔ f.len % 16 ≠ 0 ∧ r = f.len / 16) := by
  have hself := fileHas_self f
  obtain ⟨g0, e0, hok0, hr0, hb0, hf0, hw0⟩ := new_file hself w none (by simp)
  have hb0' : ∀ b ∈ g0.bounds, b = f.len := by
    intro b hb; rw [hb0 b hb]; simp
  have hlen0 : g0.len = f.len := by rw [hok0.len_eq]; simp
  have hentry : ∀ i, i < f.len / 16 → getEntry p ⟨g0, f.len⟩ i = .ok (some (entryIn f i)) := by
    intro i hi
    exact getEntry_whole (a := ⟨g0, f.len⟩) hok0 hself hb0 (by omega) (by simp; omega)
  unfold idxOpen Appender.new
  simp only [e0]
  unfold idxLast idxLen
  simp only [hlen0]
  by_cases hq0 : f.len / 16 = 0
  · rw [if_pos hq0]
    simp only
    exact ⟨0, _, f.len, ⟨by omega, by omega, by omega, by omega⟩, rfl, hok0, hr0, hb0', rfl, hf0, hw0,
      le_refl _, hq0, by omega⟩
  · rw [if_neg hq0, hentry (f.len / 16 - 1) (by omega)]
    simp only
    by_cases hl : (entryIn f (f.len / 16 - 1)).2 = 0
    · rw [if_pos hl]
      obtain ⟨r, e, h1, h2, h3⟩ := findEnd_spec (at_ := lengthAt p ⟨g0, f.len⟩)
        (L := fun i => (entryIn f i).2) (len := f.len / 16) (by
          intro i hi
          unfold lengthAt
          rw [hentry i hi]) (by omega)
      rw [e]
      simp only
      have hrl : r ≠ f.len / 16 := by
        rintro rfl
        exact h3 (by omega) hl
      obtain ⟨g1, e1, hok1, hr1, hb1, hf1, hw1⟩ := new_file (read_prefix (f := f) (n := 16 * r) (by omega)) w
        (some (16 * r)) (by simp)
      simp only [e1]
      refine ⟨r, _, 16 * r, ⟨h1, h2, h3, fun _ hc => absurd hl hc⟩, rfl, hok1, hr1, ?_, ?_, hf1, hw1, by omega,
        by omega, by omega⟩
      · intro b hb; rw [hb1 b hb]; simp
      · simp only; rw [hok1.len_eq]; simp
    · rw [if_neg hl]
      exact ⟨f.len / 16, _, f.len, ⟨le_refl _, by omega, fun _ => hl, fun _ _ => rfl⟩, rfl, hok0, hr0, hb0', rfl,
        hf0, hw0, le_refl _, rfl, by omega⟩

/-- A database just opened: `r` entries of the index and `used` bytes of the data are mapped. -/
structure Opened (db : DB) (data idx : Blob) (w : Bool) (r used : Nat) : Prop where
  idxOK : GMOK db.idx.g (idx.read 0 (16 * r))
  idxRoom : Room db.idx.g
  idxBounds : ∀ b ∈ db.idx.g.bounds, b = 16 * r
  idxSize : db.idx.size = 16 * r
  idxLe : 16 * r ≤ idx.len
  idxFile : db.idx.g.file = some idx
  idxWritable : db.idx.g.writable = w
  dataOK : GMOK db.data.g (data.read 0 used)
  dataRoom : Room db.data.g
  dataBounds : ∀ b ∈ db.data.g.bounds, b = used
  dataSize : db.data.size = used
  dataLe : used ≤ data.len
  dataFile : db.data.g.file = some data
  dataWritable : db.data.g.writable = w

/-- Opening two arbitrary files. -/
theorem open_any (p : Params) (data idx : Blob) (w : Bool) (hi : idx.len < 2 ^ 64) :
    ∃ r, IndexEnd idx r ∧
      match openAnswer p.checked data idx r with
      | .error e => DB.openDB p (some data) (some idx) w = .error e
      | .ok used => ∃ db, DB.openDB p (some data) (some idx) w = .ok db ∧ Opened db data idx w r used := by
  obtain ⟨r, a, n, hend, ea, hok, hroom, hb, hsz, hf, hw, hn, hnr, hodd⟩ := idxOpen_any p idx w hi
  refine ⟨r, hend, ?_⟩
  have hent : ∀ i, i < r → getEntry p a i = .ok (some (entryIn idx i)) := by
    intro i hir
    exact getEntry_whole hok (read_prefix hn) (by simpa using hb) (by omega) (by simp; omega)
  have hlast : idxLast p a = .ok (if r = 0 then none else some (entryIn idx (r - 1))) := by
    unfold idxLast idxLen
    rw [hsz, hnr]
    by_cases hc : r = 0
    · rw [if_pos hc, if_pos hc]
    · rw [if_neg hc, if_neg hc, hent _ (by omega)]
  have hle : ((if r = 0 then none else some (entryIn idx (r - 1))).map (fun e : Nat × Nat => e.1 + e.2)).getD 0
      = lastEnd idx r := by
    unfold lastEnd
    by_cases hc : r = 0
    · simp [hc]
    · simp [hc]
  unfold openAnswer DB.openDB
  simp only [ea, hsz]
  by_cases h1 : idx.len % 16 ≠ 0 ∧ r = idx.len / 16
  · rw [if_pos h1, if_pos (hodd.mpr h1)]
  rw [if_neg h1, if_neg (fun h => h1 (hodd.mp h))]
  simp only [hlast, hle]
  by_cases h2 : 2 ^ 64 ≤ lastEnd idx r ∧ p.checked = true
  · rw [if_pos h2]
    unfold usize
    rw [if_neg (by omega), if_pos h2.2]
  rw [if_neg h2]
  have hu : usize p (lastEnd idx r) = .ok (lastEnd idx r % 2 ^ 64) := by
    unfold usize
    by_cases hc : lastEnd idx r < 2 ^ 64
    · rw [if_pos hc, Nat.mod_eq_of_lt hc]
    · rw [if_neg hc, if_neg (fun hp => h2 ⟨by omega, hp⟩)]
  simp only [hu]
  generalize lastEnd idx r % 2 ^ 64 = used
  by_cases h3 : data.len < used
  · rw [if_pos h3]
    simp only [Appender.new, GM.new, Option.getD_some]
    rw [if_pos h3]
  rw [if_neg h3]
  have hpre := read_prefix (f := data) (n := used) (by omega)
  obtain ⟨g1, e1, hok1, hr1, hb1, hf1, hw1⟩ := new_file hpre w (some used) (by simp)
  simp only [Appender.new, e1]
  have hn16 : n = 16 * r := by
    by_contra hne
    exact h1 (hodd.mp (by omega))
  subst hn16
  refine ⟨_, rfl, ⟨hok, hroom, hb, hsz, hn, hf, hw, hok1, hr1, ?_, ?_, by omega, hf1, hw1⟩⟩
  · intro b hb
    rw [hb1 b hb]; simp
  · simp only
    rw [hok1.len_eq]; simp

/-- A record of data mapped up to `used`, and perhaps in further pieces after that. -/
theorem getRecord_at {a : Appender} {C : List UInt8} (h : GMOK a.g C) {o l : Nat}
    (hl : o + l ≤ C.length) (hb : ∀ b ∈ a.g.bounds, o < b → o + l ≤ b) (ho : o < C.length) :
    getRecord a o l = .ok (some ((C.drop o).take l)) := by
  unfold getRecord
  obtain ⟨v, e, hpos, _, hin, _, hread⟩ := h.getRef_ok ho
  have := hb _ hin (by omega)
  simp only [e]
  rw [if_neg (by omega), hread l (by omega)]

theorem Opened.getEntry {p : Params} {db : DB} {data idx : Blob} {w : Bool} {r used : Nat}
    (h : Opened db data idx w r used) {i : Nat} (hi : i < 2 ^ 60) :
    getEntry p db.idx i = .ok (if r ≤ i then none else some (entryIn idx i)) := by
  rw [getEntry_spec h.idxOK (by intro b hb; rw [h.idxBounds b hb]; exact ⟨_, rfl⟩) (by omega)]
  by_cases hc : r ≤ i
  · rw [if_pos hc, if_neg (by simp; omega)]
  · rw [if_neg hc, if_pos (by simp; omega), (read_prefix h.idxLe).entryAt (by simp; omega)]
    rfl

theorem Opened.getRecord {db : DB} {data idx : Blob} {w : Bool} {r used : Nat}
    (h : Opened db data idx w r used) (o l : Nat) : getRecord db.data o l = if used ≤ o then .ok none
      else if used < o + l then .error .dataLength else .ok (some (data.read o l)) := by
  unfold Verif.Fraos.getRecord
  by_cases hc : used ≤ o
  · rw [if_pos hc, h.dataOK.getRef_none (by simpa using hc)]
  · rw [if_neg hc]
    obtain ⟨v, e, hpos, _, hin, _, hread⟩ := h.dataOK.getRef_ok (a := o) (by simp; omega)
    have hbe := h.dataBounds _ hin
    simp only [e]
    by_cases hl : used < o + l
    · rw [if_pos hl, if_pos (by omega)]
    · rw [if_neg hl, if_neg (by omega), hread l (by omega)]
      simp only
      rw [← (read_prefix h.dataLe).read (a := o) (n := l) (by rw [Blob.read_length]; omega)]

/-- Appending to a database just opened, when no call of the system fails. -/
theorem Opened.append {p : Params} {db : DB} {data idx : Blob} {r used : Nat}
    (h : Opened db data idx true r used) {batch : List (List UInt8)} (hb : batch ≠ [])
    (hne : ∀ x ∈ batch, x ≠ []) : ∃ db1, db.append p Faults.none Faults.none batch = (.ok (some r), db1) ∧
      GMOK db1.idx.g (idx.read 0 (16 * r) ++ entriesBytes (entriesFrom used batch)) ∧
      (∀ b ∈ db1.idx.g.bounds, 16 ∣ b) ∧ db1.idx.size = 16 * (r + batch.length) ∧
      GMOK db1.data.g (data.read 0 used ++ batch.flatten) ∧
      (∀ b ∈ db1.data.g.bounds, b = used ∨ b = used + batch.flatten.length) := by
  have hbe : batch.isEmpty = false := by cases batch with
    | nil => exact absurd rfl hb
    | cons => rfl
  unfold DB.append
  rw [hbe]
  simp only [Bool.false_eq_true, if_false]
  have hC : (data.read 0 used).length = used := Blob.read_length ..
  have hD : (idx.read 0 (16 * r)).length = 16 * r := Blob.read_length ..
  rcases flatAppend_spec (p := p) h.dataOK h.dataRoom Faults.none_early hb hne with
    ⟨g1, e, hok, _, hbd, _, _⟩ | ⟨er, g1, e, hu, he⟩
  · simp only [e, h.dataSize]
    have hlen := entriesFrom_length used batch
    have hpos := List.length_pos_of_ne_nil hb
    have hrn : Recs (data.read 0 used ++ batch.flatten) [] (entriesFrom used batch) batch := by
      have := entriesFrom_recs (data.read 0 used) batch hne (bs := []) (by simp)
      rwa [hC] at this
    have h1 : (entriesFrom used batch).isEmpty = false := by
      rw [List.isEmpty_eq_false_iff]
      intro h0
      rw [h0] at hlen
      simp at hlen; omega
    have h2 : (entriesFrom used batch).any (fun e => e.2 == 0) = false := by
      rw [List.any_eq_false]
      intro e he
      have := hrn.mem he
      simp; omega
    unfold idxAppend
    rw [h1, h2]
    simp only [Bool.false_eq_true, if_false]
    unfold Appender.append
    rw [← entriesBytes_length, if_neg (by rw [entriesBytes_length, hlen]; omega)]
    rcases grow_spec (p := p) h.idxOK h.idxRoom (ft := Faults.none) rfl rfl rfl
      (bs := entriesBytes (entriesFrom used batch)) (by rw [entriesBytes_length, hlen]; omega)
      (f := writeEntries (entriesFrom used batch))
      (by
        intro n hn
        rw [entriesBytes_length] at hn
        unfold writeEntries; rw [if_neg (by omega)]) with
      ⟨g2, e2, hok2, _, hbd2, _⟩ | ⟨er, g2, e2, _, he⟩
    · simp only [e2]
      refine ⟨⟨⟨g1, used + batch.flatten.length⟩, ⟨g2, db.idx.size +
        (entriesBytes (entriesFrom used batch)).length⟩⟩, ?_, hok2, ?_, ?_, hok, ?_⟩
      · unfold idxLen
        rw [h.idxSize, show 16 * r / 16 = r by omega]
      · intro b hb
        rcases hbd2 b hb with hb | hb
        · rw [h.idxBounds b hb]; exact ⟨_, rfl⟩
        · rw [hD, entriesBytes_length] at hb
          exact ⟨r + (entriesFrom used batch).length, by omega⟩
      · simp only [h.idxSize, entriesBytes_length, hlen]; omega
      · intro b hb
        rcases hbd b hb with hb | hb
        · exact .inl (h.dataBounds b hb)
        · rw [hC] at hb; exact .inr hb
    · rcases he with ⟨_, he | he⟩ | ⟨_, he⟩
      · cases he
      · rw [h.idxWritable] at he; cases he
      · cases he
  · rcases he with ⟨_, he | he⟩ | ⟨_, he⟩
    · cases he
    · rw [h.dataWritable] at he; cases he
    · cases he

/-! ### C93 -/

/-- Whatever the two files hold, there is an end of the index such that opening answers exactly
`openAnswer`; the files are as they were; and every read of the database, and every step of an
iterator, answers exactly `readAnswer` and `nextAnswer`. -/
theorem C93_exact (p : Params) (data idx : Blob) (w : Bool) (hi : idx.len < 2 ^ 64) :
    ∃ r, IndexEnd idx r ∧
      match openAnswer p.checked data idx r with
      | .error e => DB.openDB p (some data) (some idx) w = .error e
      | .ok used => ∃ db, DB.openDB p (some data) (some idx) w = .ok db ∧ db.len = r ∧
          db.data.g.file = some data ∧ db.idx.g.file = some idx ∧
          ∀ i, i < 2 ^ 60 → db.get p i = readAnswer data idx r used i ∧
            db.next p i = nextAnswer data idx r used i := by
  obtain ⟨r, hend, h⟩ := open_any p data idx w hi
  refine ⟨r, hend, ?_⟩
  split at h
  · exact h
  · rename_i used hu
    obtain ⟨db, e, ho⟩ := h
    refine ⟨db, e, ?_, ho.dataFile, ho.idxFile, ?_⟩
    · unfold DB.len idxLen
      rw [ho.idxSize]; omega
    · intro i hi
      unfold DB.get DB.next nextAnswer readAnswer
      rw [ho.getEntry hi]
      by_cases hc : r ≤ i
      · simp [hc]
      · simp only [if_neg hc, ho.getRecord]
        by_cases h4 : used ≤ (entryIn idx i).1
        · simp [h4]
        · by_cases h5 : used < (entryIn idx i).1 + (entryIn idx i).2
          · simp [h4, h5]
          · simp [h4, h5]

/-- An index of three entries and eight bytes of padding, of which two entries are in use. -/
example : IndexEnd ⟨56, fun i => if i = 8 ∨ i = 16 ∨ i = 24 then 1 else 0⟩ 2 := by
  refine ⟨by decide, fun _ => by decide +kernel, fun _ => by decide +kernel, fun _ h => ?_⟩
  exact absurd (by decide +kernel) h

/-- **C93.** A file that breaks off inside an entry is refused, unless padding comes before the break. -/
theorem C93_refuses_torn (p : Params) (data idx : Blob) (w : Bool) (hi : idx.len < 2 ^ 64)
    (hodd : idx.len % 16 ≠ 0) (hlast : 16 ≤ idx.len → (entryIn idx (idx.len / 16 - 1)).2 ≠ 0) :
    DB.openDB p (some data) (some idx) w = .error .indexDamaged := by
  obtain ⟨r, hr, h⟩ := C93_exact p data idx w hi
  have hrn : r = idx.len / 16 := by
    by_cases hc : 16 ≤ idx.len
    · exact hr.full (by omega) (hlast hc)
    · have := hr.le; omega
  unfold openAnswer at h
  rw [if_pos ⟨hodd, hrn⟩] at h
  exact h

example : ∃ idx : Blob, idx.len % 16 ≠ 0 ∧ 16 ≤ idx.len ∧ (entryIn idx (idx.len / 16 - 1)).2 ≠ 0 :=
  ⟨⟨24, fun _ => 1⟩, by decide, by decide, by decide +kernel⟩

/-- **C93.** If the last record of the index does not lie in the data file, opening fails, provided its
end is a number of 64 bits. -/
theorem C93_refuses_partial (p : Params) (data idx : Blob) (w : Bool) (hi : idx.len < 2 ^ 64) (db : DB)
    (hdb : DB.openDB p (some data) (some idx) w = .ok db) (hpos : 0 < db.len)
    (hend : (entryIn idx (db.len - 1)).1 + (entryIn idx (db.len - 1)).2 < 2 ^ 64) :
    (entryIn idx (db.len - 1)).1 + (entryIn idx (db.len - 1)).2 ≤ data.len ∧
      0 < (entryIn idx (db.len - 1)).2 ∧
      db.last p = .ok (some (data.read (entryIn idx (db.len - 1)).1 (entryIn idx (db.len - 1)).2)) := by
  obtain ⟨r, hr, h⟩ := C93_exact p data idx w hi
  cases ho : openAnswer p.checked data idx r with
  | error e => rw [ho] at h; simp only at h; rw [hdb] at h; cases h
  | ok used =>
    rw [ho] at h
    obtain ⟨db', e, hlen, _, _, hget⟩ := h
    rw [hdb] at e; cases e
    rw [hlen] at hpos hend ⊢
    have hl : lastEnd idx r = (entryIn idx (r - 1)).1 + (entryIn idx (r - 1)).2 := by
      unfold lastEnd; rw [if_neg (by omega)]
    have hp := hr.prev hpos
    unfold openAnswer at ho
    split at ho
    · cases ho
    · split at ho
      · cases ho
      · split at ho
        · cases ho
        · cases ho
          rw [hl, Nat.mod_eq_of_lt hend] at *
          refine ⟨by omega, by omega, ?_⟩
          unfold DB.last DB.isEmpty
          rw [hlen, if_neg (by simp; omega)]
          have hrl := hr.le
          rw [(hget (r - 1) (by omega)).1]
          unfold readAnswer
          rw [if_neg (by omega), if_neg (by omega), if_neg (by omega)]

/-- **C93.** In a build without overflow checks opening never panics: it fails only by calling the index or
the data damaged. What it opens never panics either: a record below the number of records is read, or is
missing, or is refused because of its length. -/
theorem C93_total_partial (p : Params) (hp : p.checked = false) (data idx : Blob) (w : Bool)
    (hi : idx.len < 2 ^ 64) :
    DB.openDB p (some data) (some idx) w = .error .indexDamaged ∨
    DB.openDB p (some data) (some idx) w = .error .dataDamaged ∨
    ∃ db, DB.openDB p (some data) (some idx) w = .ok db ∧
      ∀ i, i < 2 ^ 60 → (∃ x, db.get p i = .ok x) ∨ db.get p i = .error .dataLength := by
  obtain ⟨r, hr, h⟩ := C93_exact p data idx w hi
  unfold openAnswer at h
  split at h
  · rename_i e he
    split at he
    · cases he; exact .inl h
    · rw [hp] at he
      rw [if_neg (by simp)] at he
      split at he
      · cases he; exact .inr (.inl h)
      · cases he
  · obtain ⟨db, e, _, _, _, hget⟩ := h
    refine .inr (.inr ⟨db, e, ?_⟩)
    intro i hi
    rw [(hget i hi).1]
    unfold readAnswer
    split_ifs
    · exact .inl ⟨_, rfl⟩
    · exact .inl ⟨_, rfl⟩
    · exact .inr rfl
    · exact .inl ⟨_, rfl⟩

example : Params.code.checked = false := rfl

/-- **C93.** Every record that is read consists of the bytes that its entry names, all inside the data
file. -/
theorem C93_reads (p : Params) (data idx : Blob) (w : Bool) (hi : idx.len < 2 ^ 64) (db : DB)
    (hdb : DB.openDB p (some data) (some idx) w = .ok db) (i : Nat) (hi60 : i < 2 ^ 60) (rec : List UInt8)
    (hrec : db.get p i = .ok (some rec)) :
    i < db.len ∧ rec = data.read (entryIn idx i).1 (entryIn idx i).2 ∧
      (entryIn idx i).1 + (entryIn idx i).2 ≤ data.len := by
  obtain ⟨r, hr, h⟩ := C93_exact p data idx w hi
  cases ho : openAnswer p.checked data idx r with
  | error e => rw [ho] at h; simp only at h; rw [hdb] at h; cases h
  | ok used =>
    rw [ho] at h
    obtain ⟨db', e, hlen, _, _, hget⟩ := h
    rw [hdb] at e; cases e
    rw [(hget i hi60).1] at hrec
    have hu : used ≤ data.len := by
      unfold openAnswer at ho
      split at ho
      · cases ho
      · split at ho
        · cases ho
        · split at ho
          · cases ho
          · rename_i h1 h2 h3
            cases ho
            exact Nat.le_of_not_lt h3
    unfold readAnswer at hrec
    split at hrec
    · cases hrec
    · split at hrec
      · cases hrec
      · split at hrec
        · cases hrec
        · rename_i h1 h2 h3
          exact ⟨by rw [hlen]; exact Nat.lt_of_not_le h1, (Option.some.inj (Except.ok.inj hrec)).symm, le_trans (Nat.le_of_not_lt h3) hu⟩

/-- A file of bytes. -/
def blobOf (l : List UInt8) : Blob := ⟨l.length, fun i => l.getD i 0⟩

/-- Two records, all bytes in place: the database opens and both are read. -/
example : (match DB.openDB Params.code (some (blobOf [7, 8, 9]))
      (some (blobOf (entriesBytes [(0, 1), (1, 2)]))) true with
    | .ok db => some (db.len, db.get Params.code 0, db.get Params.code 1)
    | .error _ => none) = some (2, .ok (some [7]), .ok (some [8, 9])) := by decide +kernel

/-- **C93 is false** with overflow checks: an index whose last entry names an end beyond 64 bits makes
opening panic. -/
theorem C93_panic_false : ∃ data idx : Blob, idx.len = 16 ∧
    DB.openDB { checked := true } (some data) (some idx) true = .error .panic :=
  ⟨blobOf [7], blobOf (List.replicate 16 255), by decide, by rfl⟩

/-- **C93 is false** without them: such an index is accepted with a data file that does not hold the
record. -/
theorem C93_wrap_false : ∃ (data idx : Blob) (db : DB), data.len < (entryIn idx 0).1 + (entryIn idx 0).2 ∧
    DB.openDB Params.code (some data) (some idx) true = .ok db ∧ db.len = 1 ∧
    db.get Params.code 0 = .ok none := by
  refine ⟨blobOf [], blobOf (entriesBytes [(2 ^ 64 - 1, 1)]), _, by decide +kernel, rfl, by decide +kernel,
    by decide +kernel⟩

/-- **C93 is false**: only the last entry is checked on opening. An earlier one that names bytes outside
the data is accepted; its record is missing, and an iterator that meets it ends there although a record
follows. -/
theorem C93_outside_false : ∃ (data idx : Blob) (db : DB), data.len < (entryIn idx 0).1 ∧
    DB.openDB Params.code (some data) (some idx) true = .ok db ∧ db.len = 2 ∧
    (db.next Params.code 0).1 = .ok none ∧ db.get Params.code 1 = .ok (some [7]) := by
  refine ⟨blobOf [7], blobOf (entriesBytes [(5, 3), (0, 1)]), _, by decide +kernel, rfl, by decide +kernel,
    by decide +kernel, by decide +kernel⟩

/-- **C93 is false**: an entry that names more bytes than there are makes an iterator answer an error at
every call, without end, and never the record that follows. -/
theorem C93_stuck_false : ∃ (data idx : Blob) (db : DB),
    DB.openDB Params.code (some data) (some idx) true = .ok db ∧ db.get Params.code 1 = .ok (some [7]) ∧
    ∀ k, nexts Params.code db k 0 = List.replicate k (.error .dataLength) := by
  refine ⟨blobOf [7], blobOf (entriesBytes [(0, 3), (0, 1)]), _, rfl, by decide +kernel, ?_⟩
  intro k
  induction k with
  | zero => rfl
  | succ k ih =>
    rw [List.replicate_succ, ← ih]
    rfl

/-- **C93.** A database opened from any two files takes records: if no call of the system fails, appending
answers the number of records so far, every record of the batch is then read under its number, and every
record that was read before is read as before. -/
theorem C93_append (p : Params) (data idx : Blob) (db : DB) (hi : idx.len < 2 ^ 62)
    (hdb : DB.openDB p (some data) (some idx) true = .ok db) (batch : List (List UInt8)) (hb : batch ≠ [])
    (hne : ∀ x ∈ batch, x ≠ []) (hfit : data.len + batch.flatten.length < 2 ^ 60)
    (hnum : batch.length < 2 ^ 58) :
    ∃ db1, db.append p Faults.none Faults.none batch = (.ok (some db.len), db1) ∧
      db1.len = db.len + batch.length ∧
      (∀ j (hj : j < batch.length), db1.get p (db.len + j) = .ok (some batch[j])) ∧
      ∀ i x, i < db.len → db.get p i = .ok (some x) → db1.get p i = .ok (some x) := by
  obtain ⟨r, hr, h⟩ := open_any p data idx true (by omega)
  cases ho : openAnswer p.checked data idx r with
  | error e => rw [ho] at h; simp only at h; rw [hdb] at h; cases h
  | ok used =>
    rw [ho] at h
    obtain ⟨db', e, hop⟩ := h
    rw [hdb] at e; cases e
    have hlen : db.len = r := by
      unfold DB.len idxLen
      rw [hop.idxSize]; omega
    obtain ⟨db1, e1, hok, hbd, hsz, hdok, hdbd⟩ := hop.append (p := p) hb hne
    have hC : (data.read 0 used).length = used := Blob.read_length ..
    have hD : (idx.read 0 (16 * r)).length = 16 * r := Blob.read_length ..
    have hul := hop.dataLe
    have hrl := hop.idxLe
    have helen := entriesFrom_length used batch
    rw [hlen]
    refine ⟨db1, e1, ?_, ?_, ?_⟩
    · unfold DB.len idxLen
      rw [hsz]; omega
    · intro j hj
      have hrn : Recs (data.read 0 used ++ batch.flatten) db1.data.g.bounds (entriesFrom used batch)
          batch := by
        have := entriesFrom_recs (data.read 0 used) batch hne (bs := db1.data.g.bounds) (by
          intro b hb
          rcases hdbd b hb with hb | hb <;> omega)
        rwa [hC] at this
      have hj' : j < (entriesFrom used batch).length := by omega
      have hget := (List.forall₂_iff_get.mp hrn.each).2 j hj' hj
      simp only [List.get_eq_getElem] at hget
      obtain ⟨g1, g2, g3, g4, g5⟩ := hget
      rw [List.length_append, hC] at g3
      unfold DB.get
      rw [getEntry_spec hok hbd (by omega), if_pos (by
        rw [List.length_append, hD, entriesBytes_length]; omega)]
      have hent : entryAt (idx.read 0 (16 * r) ++ entriesBytes (entriesFrom used batch)) (r + j)
          = (entriesFrom used batch)[j] := by
        have hd : ∀ k, (idx.read 0 (16 * r) ++ entriesBytes (entriesFrom used batch)).drop
            (16 * (r + j) + k) = (entriesBytes (entriesFrom used batch)).drop (16 * j + k) := by
          intro k
          rw [show 16 * (r + j) + k = (idx.read 0 (16 * r)).length + (16 * j + k) by omega,
            List.drop_append, List.drop_of_length_le (by omega), List.nil_append]
          congr 1; omega
        have := entryAt_entries (List.getElem?_eq_getElem hj') (by omega) (by omega)
        unfold entryAt at this ⊢
        have h0 := hd 0
        simp only [Nat.add_zero] at h0
        rw [h0, hd 8]
        exact this
      simp only [hent]
      rw [getRecord_at hdok (by rw [List.length_append, hC]; exact g3) (by
        intro b hb hlt
        have := g5 b hb
        omega) (by rw [List.length_append, hC]; omega), g4]
    · intro i x hir hx
      unfold DB.get at hx ⊢
      rw [hop.getEntry (by omega), if_neg (by omega)] at hx
      simp only at hx
      rw [hop.getRecord] at hx
      rw [getEntry_spec hok hbd (by omega), if_pos (by rw [List.length_append, hD]; omega)]
      have hent : entryAt (idx.read 0 (16 * r) ++ entriesBytes (entriesFrom used batch)) i
          = entryIn idx i := by
        have h0 : entryAt (idx.read 0 (16 * r)) i = entryIn idx i :=
          (read_prefix hop.idxLe).entryAt (by omega)
        rw [← h0]
        unfold entryAt
        rw [List.drop_append_of_le_length (by omega), List.drop_append_of_le_length (by omega),
          List.take_append_of_le_length (by rw [List.length_drop]; omega),
          List.take_append_of_le_length (by rw [List.length_drop]; omega)]
      simp only [hent]
      split at hx
      · cases hx
      · split at hx
        · cases hx
        · rename_i h1 h2
          rw [getRecord_at hdok (by rw [List.length_append, hC]; omega) (by
            intro b hb hlt
            rcases hdbd b hb with hb | hb <;> omega) (by rw [List.length_append, hC]; omega), ← hx]
          rw [List.drop_append_of_le_length (by omega),
            List.take_append_of_le_length (by rw [List.length_drop]; omega)]
          rw [← (read_prefix hop.dataLe).read (by omega)]

/-- **C93 is false**: when an entry names bytes behind the last record, its record is missing on opening
and appears, made of the bytes of another, as soon as one is appended. -/
theorem C93_alias_false : ∃ (data idx : Blob) (db db1 : DB),
    DB.openDB Params.code (some data) (some idx) true = .ok db ∧ db.get Params.code 0 = .ok none ∧
    db.append Params.code Faults.none Faults.none [[1, 2, 3]] = (.ok (some 2), db1) ∧
    db1.get Params.code 0 = .ok (some [2, 3]) ∧ db1.get Params.code 2 = .ok (some [1, 2, 3]) := by
  refine ⟨blobOf [7], blobOf (entriesBytes [(2, 2), (0, 1)]), _, _, rfl, by decide +kernel, rfl,
    by decide +kernel, by decide +kernel⟩

/-- **C93 is false**: entries left behind the end of the index come back. The database opens with one
record; one is appended, which makes two; opened again it has three. -/
theorem C93_revive_false : ∃ (data idx : Blob) (db db1 db2 : DB),
    DB.openDB Params.code (some data) (some idx) true = .ok db ∧ db.len = 1 ∧
    db.append Params.code Faults.none Faults.none [[8]] = (.ok (some 1), db1) ∧ db1.len = 2 ∧
    DB.openDB Params.code db1.data.g.file db1.idx.g.file true = .ok db2 ∧ db2.len = 3 ∧
    db2.get Params.code 2 = .ok (some [7]) := by
  refine ⟨blobOf [7], blobOf (entriesBytes [(0, 1), (0, 0), (0, 1), (0, 0)]), _, _, _, rfl,
    by decide +kernel, rfl, by decide +kernel, rfl, by decide +kernel, by decide +kernel⟩

/-! ### C04 -/

/-- **C04.** In every state of a database, however it came about, an iterator answers what reading its
position answers, goes on by one record when it has answered one, and stays where it is when it has
answered an error: it never passes over a record that could not be read. -/
theorem C04_no_skip (p : Params) (db : DB) (n : Nat) :
    (db.next p n).1 = db.get p n ∧
    (∀ rec, db.get p n = .ok (some rec) → (db.next p n).2 = n + 1) ∧
    (∀ e, db.get p n = .error e → (db.next p n).2 = n) ∧
    (db.get p n = .ok none → (db.next p n).2 ≤ n + 1 ∧ n ≤ (db.next p n).2) := by
  unfold DB.next DB.get
  cases getEntry p db.idx n with
  | error e => simp
  | ok o =>
    cases o with
    | none => simp
    | some e =>
      simp only
      cases getRecord db.data e.1 e.2 <;> simp

end Verif.Props
