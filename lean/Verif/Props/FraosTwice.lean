import Verif.Props.FraosBeside

/-!
# C108: a directory opened for writing twice

Nothing keeps a second process from opening, for writing, a directory that a writer has open: there is no lock
on the files. `m` is a moment of the writer (`Verif/Fraos/Beside.lean`), at which the second handle `b` is
opened; `m'` is any later moment of the writer. `b.over fd fi` is the second handle over the files as they are
then. The second handle appends nothing; the last three theorems show what happens when it does.
-/

namespace Verif.Props

open Verif.Fraos

/-- What the second handle is, and the entries it knows. -/
theorem second_handle {p : Params} (hp : 16 ∣ p.minMmap) (hm : p.minMmap < 2 ^ 62) {m m' : Moment}
    (hk : Known p m) (hn : Relation.ReflTransGen (fun a b => Next p a b ∧ b.bytes < 2 ^ 59) m m') :
    ∃ b es C es', DB.openDB p (some m.fd) (some m.fi) true = .ok b ∧ DBInv b es C m.recs ∧
      b.data.g.writable = true ∧ b.idx.g.writable = true ∧ b.data.g.file = some m.fd ∧ b.idx.g.file = some m.fi ∧
      Stage m'.fd m'.fi m'.recs es' ∧ es <+: es' ∧ m.recs <+: m'.recs ∧ Known p m' := by
  obtain ⟨k1, k2, es0, es', h1, h2, h3⟩ := keeps_trans hp hm hk hn
  obtain ⟨used, hdisk⟩ := h1.disk
  obtain ⟨b, es, C, e, hinv, _, _, hwd, hwi, hfd, hfi⟩ := open_spec (p := p) hdisk true
  have : es = es0 := (hinv.stage hfd hfi h1.fits).unique h1
  subst this
  exact ⟨b, es, C, es', e, hinv, hwd, hwi, hfd, hfi, h2, h3, k2, k1⟩

/-- **C108.** The second opening is not refused. It changes no file and shows the records complete at that moment.
When the second handle is closed — whatever the writer has appended since, and even if it has closed or died — the
directory holds the records of the moment it was opened and nothing else: everything acknowledged since is
gone. -/
theorem C108_cut (p : Params) (hp : 16 ∣ p.minMmap) (hm : p.minMmap < 2 ^ 62) (m m' : Moment)
    (hr : Reached p m.db m.log m.used) (hc : Crash p m.db m.op.batch m.fd m.fi m.j) (hb : m.bytes < 2 ^ 59)
    (hn : Relation.ReflTransGen (fun a b => Next p a b ∧ b.bytes < 2 ^ 59) m m') :
    ∃ b, DB.openDB p (some m.fd) (some m.fi) true = .ok b ∧
      b.data.g.file = some m.fd ∧ b.idx.g.file = some m.fi ∧
      b.len = m.recs.length ∧ (∀ i, i < 2 ^ 60 → b.get p i = .ok m.recs[i]?) ∧
      ∃ c, DB.openDB p (b.over m'.fd m'.fi).drop.data.g.file (b.over m'.fd m'.fi).drop.idx.g.file true = .ok c ∧
        c.len = m.recs.length ∧ ∀ i, i < 2 ^ 60 → c.get p i = .ok m.recs[i]? := by
  obtain ⟨b, es, C, es', e, hinv, hwd, hwi, hfd, hfi, h2, h3, k2, _⟩ := second_handle hp hm ⟨hr, hc, hb⟩ hn
  refine ⟨b, e, hfd, hfi, hinv.len_eq, fun i hi => hinv.get_ok hi, ?_⟩
  obtain ⟨e1, e2⟩ := hinv.drop_over hwd hwi m'.fd m'.fi
  obtain ⟨used, hdisk⟩ := (h2.cut h3 k2 hinv.recs.length (fun e he => (hinv.recs.mem he).2)).1
  obtain ⟨c, _, _, e3, hinv', _⟩ := open_spec (p := p) hdisk true
  exact ⟨c, by rw [e1, e2]; exact e3, hinv'.len_eq, fun i hi => hinv'.get_ok hi⟩

/-- **C108.** It does not help the writer to close after that, if it appends nothing more: its closing makes the files
longer again, but what was cut off is gone. The writer is between two calls. -/
theorem C108_cut_closed (p : Params) (hp : 16 ∣ p.minMmap) (hm : p.minMmap < 2 ^ 62) (m m' : Moment)
    (hr : Reached p m.db m.log m.used) (hc : Crash p m.db m.op.batch m.fd m.fi m.j) (hb : m.bytes < 2 ^ 59)
    (hn : Relation.ReflTransGen (fun a b => Next p a b ∧ b.bytes < 2 ^ 59) m m')
    (hd : m'.db.data.g.file = some m'.fd) (hi : m'.db.idx.g.file = some m'.fi) :
    ∃ b fd fi, DB.openDB p (some m.fd) (some m.fi) true = .ok b ∧
      (b.over m'.fd m'.fi).drop.data.g.file = some fd ∧ (b.over m'.fd m'.fi).drop.idx.g.file = some fi ∧
      ∃ c, (m'.db.over fd fi).reopen p true = .ok c ∧
        c.len = m.recs.length ∧ ∀ i, i < 2 ^ 60 → c.get p i = .ok m.recs[i]? := by
  obtain ⟨b, es, C, es', e, hinv, hwd, hwi, hfd, hfi, h2, h3, k2, k1⟩ := second_handle hp hm ⟨hr, hc, hb⟩ hn
  have hf := k1.fits
  unfold Moment.bytes at hf
  have hg := k1.reached.good hp hm (by omega)
  obtain ⟨es2, C2, hinv2, hC2⟩ := hg.ex
  have hs2 := hinv2.stage hd hi h2.fits
  have he2 : es2 = es' := hs2.unique h2
  subst he2
  obtain ⟨e1, e2⟩ := hinv.drop_over hwd hwi m'.fd m'.fi
  obtain ⟨e3, e4⟩ := hinv2.drop_over hg.wd hg.wi (m'.fd.setLen C.length) (m'.fi.setLen (16 * es.length))
  have hle : es.length ≤ es2.length := h3.length_le
  have hcount := hinv2.recs.count_le
  have hfits := hinv2.fits
  obtain ⟨used, hdisk⟩ := (h2.cut h3 k2 hinv.recs.length (fun e he => (hinv.recs.mem he).2)).2 C2.length
    (16 * es2.length) (fun e he => (hinv2.recs.mem (h3.subset he)).2) (by omega) (by omega) (by omega)
  obtain ⟨c, _, _, e5, hinv', _⟩ := open_spec (p := p) hdisk true
  refine ⟨b, _, _, e, e1, e2, c, ?_, hinv'.len_eq, fun i hi => hinv'.get_ok hi⟩
  unfold DB.reopen
  rw [e3, e4]
  exact e5

/-- **C108** is false: an acknowledged record is gone when an idle second handle is closed. The writer has two records,
the directory is opened a second time, the writer appends a third record and is told its number, the second
handle is closed; the directory then holds two records. -/
theorem C108_kept_false : ∃ (a b c : DB), Reached Params.code a [[1], [2]] 2 ∧
    DB.openDB Params.code a.data.g.file a.idx.g.file true = .ok b ∧
    (a.append Params.code Faults.none Faults.none [[3]]).1 = .ok (some 2) ∧
    (∃ fd fi, (a.append Params.code Faults.none Faults.none [[3]]).2.data.g.file = some fd ∧
      (a.append Params.code Faults.none Faults.none [[3]]).2.idx.g.file = some fi ∧
      DB.openDB Params.code (b.over fd fi).drop.data.g.file (b.over fd fi).drop.idx.g.file true = .ok c) ∧
    c.len = 2 ∧ c.get Params.code 2 = .ok none := by
  have hr := two_reached Params.code
  have h1 : ((twoDB Params.code).append Params.code Faults.none Faults.none [[3]]).2.data.g.file =
      some ((twoDB Params.code).append Params.code Faults.none Faults.none [[3]]).2.data.g.fileBlob := some_blob rfl
  have h2 : ((twoDB Params.code).append Params.code Faults.none Faults.none [[3]]).2.idx.g.file =
      some ((twoDB Params.code).append Params.code Faults.none Faults.none [[3]]).2.idx.g.fileBlob := some_blob rfl
  obtain ⟨b, e1, _, _, _, _, c, e2, hl, hget⟩ := C108_cut Params.code (by decide) (by decide)
    ⟨twoDB Params.code, [[1], [2]], 2, .append [[3]], (twoDB Params.code).data.g.fileBlob,
      (twoDB Params.code).idx.g.fileBlob, 0⟩
    ⟨(step Params.code (twoDB Params.code) (.append [[3]])).2, [[1], [2], [3]], 3, .len,
      ((twoDB Params.code).append Params.code Faults.none Faults.none [[3]]).2.data.g.fileBlob,
      ((twoDB Params.code).append Params.code Faults.none Faults.none [[3]]).2.idx.g.fileBlob, 0⟩
    hr (.idle (some_blob rfl) (some_blob rfl)) (by decide)
    (.single ⟨.ends trivial h1 h2, by decide⟩)
  refine ⟨twoDB Params.code, b, c, hr, ?_, by decide +kernel, ⟨_, _, h1, h2, e2⟩, hl, hget 2 (by decide)⟩
  rw [show (twoDB Params.code).data.g.file = some (twoDB Params.code).data.g.fileBlob from some_blob rfl,
    show (twoDB Params.code).idx.g.file = some (twoDB Params.code).idx.g.fileBlob from some_blob rfl]
  exact e1

/-- **C108** is false: two handles for writing give out the same number and overwrite each other's records. -/
theorem C108_overwritten_false : ∃ (a b : DB), fresh Params.code true = .ok a ∧
    DB.openDB Params.code a.data.g.file a.idx.g.file true = .ok b ∧
    (a.append Params.code Faults.none Faults.none [[1]]).1 = .ok (some 0) ∧
    ∃ fd fi fd' fi', (a.append Params.code Faults.none Faults.none [[1]]).2.data.g.file = some fd ∧
      (a.append Params.code Faults.none Faults.none [[1]]).2.idx.g.file = some fi ∧
      ((b.over fd fi).append Params.code Faults.none Faults.none [[7]]).1 = .ok (some 0) ∧
      ((b.over fd fi).append Params.code Faults.none Faults.none [[7]]).2.data.g.file = some fd' ∧
      ((b.over fd fi).append Params.code Faults.none Faults.none [[7]]).2.idx.g.file = some fi' ∧
      ((a.append Params.code Faults.none Faults.none [[1]]).2.over fd' fi').get Params.code 0 = .ok (some [7]) := by
  refine ⟨newDB, newDB, rfl, rfl, by decide +kernel, _, _, _, _, some_blob rfl, some_blob rfl, by decide +kernel,
    some_blob rfl, some_blob rfl, by decide +kernel⟩

/-- Appends through two handles of one directory, in turns: `true` stands for the first handle. After each call the other
handle looks at the files as they are then. -/
def inTurns (p : Params) : DB → DB → List (Bool × List (List UInt8)) → List (Except Err (Option Nat)) × DB × DB
  | a, b, [] => ([], a, b)
  | a, b, (true, recs) :: rest =>
    let r := a.append p Faults.none Faults.none recs
    let (l, x) := inTurns p r.2 (b.over r.2.data.g.fileBlob r.2.idx.g.fileBlob) rest
    (r.1 :: l, x)
  | a, b, (false, recs) :: rest =>
    let r := b.append p Faults.none Faults.none recs
    let (l, x) := inTurns p (a.over r.2.data.g.fileBlob r.2.idx.g.fileBlob) r.2 rest
    (r.1 :: l, x)

theorem append_count (p : Params) (db : DB) (recs : List (List UInt8)) :
    (∃ e, (db.append p Faults.none Faults.none recs).1 = .error e ∧
      (db.append p Faults.none Faults.none recs).2.len = db.len) ∨
    ((db.append p Faults.none Faults.none recs).1 = .ok (if recs = [] then none else some db.len) ∧
      (db.append p Faults.none Faults.none recs).2.len = db.len + recs.length) := by
  unfold DB.append
  by_cases hr : recs = []
  · right
    subst hr
    exact ⟨rfl, rfl⟩
  rw [if_neg (by simpa using hr), if_neg hr]
  rcases hf : flatAppend p db.data Faults.none recs with ⟨_ | _, d⟩
  · exact .inl ⟨_, rfl, rfl⟩
  have hlen : ∀ off, (entriesFrom off recs).length = recs.length := by
    clear * -
    induction recs with
    | nil => exact fun _ => rfl
    | cons r rs ih => exact fun off => by simp [entriesFrom, ih]
  have hne : (entriesFrom db.data.size recs).isEmpty = false := by
    cases h : entriesFrom db.data.size recs with
    | nil =>
      have := hlen db.data.size
      rw [h] at this
      exact absurd (List.eq_nil_of_length_eq_zero this.symm) hr
    | cons => rfl
  have hrec : 0 < recs.length := List.length_pos_iff.2 hr
  unfold idxAppend
  simp only [hne, Bool.false_eq_true, if_false]
  split
  · exact .inl ⟨_, rfl, rfl⟩
  unfold Appender.append
  rw [if_neg (by rw [hlen]; omega), hlen]
  rcases hg : db.idx.g.grow p Faults.none (16 * recs.length) (writeEntries (entriesFrom db.data.size recs)) with ⟨_ | _, g⟩
  · exact .inl ⟨_, rfl, rfl⟩
  · refine .inr ⟨rfl, ?_⟩
    show (db.idx.size + 16 * recs.length) / 16 = db.idx.size / 16 + recs.length
    omega

/-- The numbers when each of two handles, which know `x` and `y` records, counts for itself: a call that is not refused answers
the count of its handle, and only this count then grows. -/
def CountsAlone : Nat → Nat → List (Bool × List (List UInt8)) → List (Except Err (Option Nat)) → Prop
  | _, _, [], [] => True
  | x, y, (true, recs) :: t, r :: l => (∃ e, r = .error e ∧ CountsAlone x y t l) ∨
    (r = .ok (if recs = [] then none else some x) ∧ CountsAlone (x + recs.length) y t l)
  | x, y, (false, recs) :: t, r :: l => (∃ e, r = .error e ∧ CountsAlone x y t l) ∨
    (r = .ok (if recs = [] then none else some y) ∧ CountsAlone x (y + recs.length) t l)
  | _, _, _, _ => False

/-- **C108.** Whatever is appended in whatever turns, each of two handles of one directory counts for itself: what the other one
appends has no influence on the numbers it gives out. -/
theorem C108_numbers (p : Params) (turns : List (Bool × List (List UInt8))) (a b : DB) :
    CountsAlone a.len b.len turns (inTurns p a b turns).1 := by
  induction turns generalizing a b with
  | nil => trivial
  | cons t ts ih =>
    obtain ⟨side, recs⟩ := t
    cases side
    · have := ih (a.over (b.append p Faults.none Faults.none recs).2.data.g.fileBlob
        (b.append p Faults.none Faults.none recs).2.idx.g.fileBlob) (b.append p Faults.none Faults.none recs).2
      rcases append_count p b recs with ⟨e, h1, h2⟩ | ⟨h1, h2⟩
      · rw [h2] at this
        exact .inl ⟨e, h1, this⟩
      · rw [h2] at this
        exact .inr ⟨h1, this⟩
    · have := ih (a.append p Faults.none Faults.none recs).2 (b.over (a.append p Faults.none Faults.none recs).2.data.g.fileBlob
        (a.append p Faults.none Faults.none recs).2.idx.g.fileBlob)
      rcases append_count p a recs with ⟨e, h1, h2⟩ | ⟨h1, h2⟩
      · rw [h2] at this
        exact .inl ⟨e, h1, this⟩
      · rw [h2] at this
        exact .inr ⟨h1, this⟩

/-- **C108.** So numbers are always given twice: the directory of a writer at rest is opened a second time; if then each handle
appends records and both succeed, both are told the same number. -/
theorem C108_given_twice (p : Params) (hp : 16 ∣ p.minMmap) (hm : p.minMmap < 2 ^ 62) {a b : DB} {log : List (List UInt8)}
    {used : Nat} (hr : Reached p a log used) (hb : used < 2 ^ 59) {fd fi : Blob} (hd : a.data.g.file = some fd)
    (hi : a.idx.g.file = some fi) (hop : DB.openDB p (some fd) (some fi) true = .ok b) {recs recs' : List (List UInt8)}
    (h0 : recs ≠ []) (h0' : recs' ≠ []) {n n' : Option Nat} {a' b' : DB}
    (h : inTurns p a b [(true, recs), (false, recs')] = ([.ok n, .ok n'], a', b')) :
    n = some log.length ∧ n' = some log.length := by
  obtain ⟨es, C, hinv, _⟩ := (hr.good hp hm hb).ex
  obtain ⟨b1, e1, _, _, hl, _⟩ := C108_cut p hp hm ⟨a, log, used, .len, fd, fi, 0⟩ ⟨a, log, used, .len, fd, fi, 0⟩ hr
    (.idle hd hi) (by simpa [Moment.bytes, Op.batch] using hb) .refl
  rw [hop] at e1
  cases e1
  have hrecs : (Moment.recs ⟨a, log, used, .len, fd, fi, 0⟩).length = log.length := by simp [Moment.recs]
  rw [hrecs] at hl
  have := C108_numbers p [(true, recs), (false, recs')] a b
  rw [h, hl, hinv.len_eq] at this
  rcases this with ⟨e, h1, _⟩ | ⟨h1, h2⟩
  · cases h1
  rcases h2 with ⟨e, h3, _⟩ | ⟨h3, _⟩
  · cases h3
  rw [if_neg h0] at h1
  rw [if_neg h0'] at h3
  exact ⟨Except.ok.inj h1, Except.ok.inj h3⟩

/-- Two records are there, the second handle is opened, and each handle appends one. -/
example : ∃ (b a' b' : DB) (fd fi : Blob), (twoDB Params.code).data.g.file = some fd ∧ (twoDB Params.code).idx.g.file = some fi ∧
    DB.openDB Params.code (some fd) (some fi) true = .ok b ∧
    inTurns Params.code (twoDB Params.code) b [(true, [[3]]), (false, [[4], [5]])] = ([.ok (some 2), .ok (some 2)], a', b') := by
  have hd : (twoDB Params.code).data.g.file = some (twoDB Params.code).data.g.fileBlob := some_blob rfl
  have hi : (twoDB Params.code).idx.g.file = some (twoDB Params.code).idx.g.fileBlob := some_blob rfl
  have h : ∀ x : List (Except Err (Option Nat)) × DB × DB, x = (x.1, x.2.1, x.2.2) := fun _ => rfl
  refine ⟨_, _, _, _, _, hd, hi, rfl, (h _).trans (congrArg (fun l => (l, _, _)) ?_)⟩
  decide +kernel

/-- **C108** is false in another way: with appends through both handles a read can answer a record that nobody appended. The
entry is that of the first handle, the byte was overwritten by the second. -/
theorem C108_mixed_false : ∃ (a b a' b' : DB), fresh Params.code true = .ok a ∧
    DB.openDB Params.code a.data.g.file a.idx.g.file true = .ok b ∧
    inTurns Params.code a b [(true, [[1, 1, 1]]), (false, [[2], [3]]), (true, [[4]]), (false, [[5, 6]])] =
      ([.ok (some 0), .ok (some 0), .ok (some 1), .ok (some 2)], a', b') ∧
    a'.get Params.code 1 = .ok (some [6]) ∧ b'.get Params.code 1 = .ok (some [6]) := by
  have h : ∀ x : List (Except Err (Option Nat)) × DB × DB, x = (x.1, x.2.1, x.2.2) := fun _ => rfl
  refine ⟨newDB, newDB, _, _, rfl, rfl, (h _).trans (congrArg (fun l => (l, _, _)) ?_), ?_, ?_⟩
  · decide +kernel
  · decide +kernel
  · decide +kernel

/-- The data file after the second handle appended a record longer than a mapping. -/
def longData (r : List UInt8) : Appender :=
  ⟨⟨some ((Blob.empty.setLen (1 + r.length)).write 0 (2 :: r)), true, [], [], some ⟨1 + r.length, .file 0, ⟨0, [1 + r.length]⟩⟩⟩,
    1 + r.length⟩

theorem long_append (r : List UInt8) (h : 524288 ≤ r.length) :
    flatAppend Params.code newDB.data Faults.none [[2], r] = (.ok (), longData r) := by
  have h1 : r ≠ [] := by rintro rfl; simp at h
  have h2 : max (1 + r.length) (4096 * 128) = 1 + r.length := by omega
  have h3 : r.length + 1 ≤ 1 + r.length := by omega
  have h4 : r.length + 1 ≤ (1 + r.length + 4095) / 4096 * 4096 := by omega
  simp [longData, flatAppend, Appender.append, newDB, GM.grow, GM.makeRoom, GM.newSize, GM.createMmap, GM.writeOut, GM.store, GM.rearrange,
    Chunk.appendRelative, Params.code, Faults.none, writeRecords, Index.total, h1, h2, h3, h4, GM.fileBlob, pageEnd]

/-- Its index file. -/
def longIdx : Appender := (idxAppend Params.code newDB.idx Faults.none [(0, 1), (1, 600000)]).2

theorem long_db (r : List UInt8) (h : r.length = 600000) :
    newDB.append Params.code Faults.none Faults.none [[2], r] = (.ok (some 0), ⟨longData r, longIdx⟩) := by
  have e : entriesFrom newDB.data.size [[2], r] = [(0, 1), (1, 600000)] := by simp [entriesFrom, newDB, h]
  have e2 : idxAppend Params.code newDB.idx Faults.none [(0, 1), (1, 600000)] = (.ok (some 0), longIdx) :=
    Prod.ext (by decide +kernel) rfl
  unfold DB.append
  rw [long_append r (by omega), e, e2]
  rfl

theorem long_get (r : List UInt8) (h : r.length = 600000) (db : DB) (hd : db.data.g.active = (longData r).g.active)
    (hx : db.data.g.index = []) (he : getEntry Params.code db.idx 1 = .ok (some (1, 600000))) :
    db.get Params.code 1 = if 600001 ≤ pageEnd db.data.g.fileBlob.len then .ok (some (db.data.g.fileBlob.read 1 600000))
      else .error .fault := by
  have hf : (Chunk.mk 0 [600001]).find 1 = .ok (some (1, 600000)) := by decide +kernel
  have hd' : db.data.g.active = some ⟨600001, .file 0, ⟨0, [600001]⟩⟩ := by rw [hd]; simp [longData, h]
  have hr : db.data.g.getRef 1 = .ok (some ⟨.file 0, 1, 600000⟩) := by
    simp [GM.getRef, hx, Index.total, hd', hf]
  unfold DB.get
  rw [he]
  simp only [getRecord, hr, GM.readView, GM.load]
  by_cases hc : 600001 ≤ pageEnd db.data.g.fileBlob.len
  · simp [hc]
  · simp [hc]

theorem long_reads (r : List UInt8) (h : r.length = 600000) : DB.get Params.code ⟨longData r, longIdx⟩ 1 = .ok (some r) := by
  have he : getEntry Params.code longIdx 1 = .ok (some (1, 600000)) := by decide +kernel
  rw [long_get r h _ rfl rfl he]
  have h0 : (600001 : Nat) ≤ pageEnd (longData r).g.fileBlob.len := by
    simp [longData, GM.fileBlob, h, pageEnd]
  rw [if_pos h0]
  refine congrArg (fun x => Except.ok (some x)) ?_
  refine List.ext_getElem? (fun i => ?_)
  by_cases hi : i < 600000
  · rw [Blob.read_getElem? _ _ _ _ hi]
    have h1 : 1 + i < 1 + r.length := by omega
    have h3 : r[i]? = some r[i] := List.getElem?_eq_getElem (by omega)
    have h4 : 1 + i = i + 1 := by omega
    simp only [longData, GM.fileBlob, Option.getD_some, Blob.setLen_len, if_pos h1, Blob.write, Nat.zero_le, true_and,
      Nat.sub_zero]
    rw [h4, List.getElem?_cons_succ, h3]
    rfl
  · rw [List.getElem?_eq_none (by rw [Blob.read_length]; omega), List.getElem?_eq_none (by omega)]

/-- The first handle after its append. -/
def cutDB (r : List UInt8) : DB :=
  ⟨⟨⟨some (((longData r).g.fileBlob.setLen 524288).write 0 [1]), true, [], [], some ⟨524288, .file 0, ⟨0, [1]⟩⟩⟩, 1⟩,
    (idxAppend Params.code (newDB.idx.over longIdx.g.fileBlob) Faults.none [(0, 1)]).2⟩

theorem cut_data (f : Blob) : flatAppend Params.code (newDB.data.over f) Faults.none [[1]] =
    (.ok (), ⟨⟨some ((f.setLen 524288).write 0 [1]), true, [], [], some ⟨524288, .file 0, ⟨0, [1]⟩⟩⟩, 1⟩) := by
  have h3 : 1 ≤ pageEnd 524288 := by decide
  simp only [flatAppend, Appender.append, Appender.over, newDB, GM.grow, GM.makeRoom, GM.newSize, GM.createMmap,
      GM.writeOut, GM.store, GM.rearrange, Chunk.appendRelative, Params.code, Faults.none, writeRecords, Index.total, GM.fileBlob]
  simp [h3]

theorem cut_idx : idxAppend Params.code (newDB.idx.over longIdx.g.fileBlob) Faults.none [(0, 1)] =
    (.ok (some 0), (idxAppend Params.code (newDB.idx.over longIdx.g.fileBlob) Faults.none [(0, 1)]).2) :=
  Prod.ext (by
      show (idxAppend Params.code (newDB.idx.over longIdx.g.fileBlob) Faults.none [(0, 1)]).1 = .ok (some 0)
      decide +kernel) rfl

theorem cut_append (r : List UInt8) : (newDB.over (longData r).g.fileBlob longIdx.g.fileBlob).append Params.code Faults.none Faults.none
    [[1]] = (.ok (some 0), cutDB r) := by
  have hd : flatAppend Params.code (newDB.over (longData r).g.fileBlob longIdx.g.fileBlob).data Faults.none [[1]] =
      (.ok (), (cutDB r).data) := cut_data _
  have hi : idxAppend Params.code (newDB.over (longData r).g.fileBlob longIdx.g.fileBlob).idx Faults.none
      (entriesFrom (newDB.over (longData r).g.fileBlob longIdx.g.fileBlob).data.size [[1]]) = (.ok (some 0), (cutDB r).idx) :=
    cut_idx
  unfold DB.append
  rw [hd, hi]
  rfl

theorem cut_reads (r : List UInt8) (h : r.length = 600000) :
    (DB.over ⟨longData r, longIdx⟩ (cutDB r).data.g.fileBlob (cutDB r).idx.g.fileBlob).get Params.code 1 = .error .fault := by
  have he : getEntry Params.code (longIdx.over
      (idxAppend Params.code (newDB.idx.over longIdx.g.fileBlob) Faults.none [(0, 1)]).2.g.fileBlob) 1 = .ok (some (1, 600000)) := by
    decide +kernel
  rw [long_get r h _ rfl rfl he, if_neg]
  show ¬ 600001 ≤ pageEnd 524288
  unfold pageEnd
  omega

/-- **C108** is false in a third way: the first append through one handle sets the length of the files to what that handle needs.
A long record of the other handle is then behind the end of the file, and reading it, a bus error, ends the process. -/
theorem C108_fault_false : ∃ (r : List UInt8) (a b : DB), fresh Params.code true = .ok a ∧
    DB.openDB Params.code a.data.g.file a.idx.g.file true = .ok b ∧
    ∃ b', b.append Params.code Faults.none Faults.none [[2], r] = (.ok (some 0), b') ∧ b'.get Params.code 1 = .ok (some r) ∧
    ∃ a', (a.over b'.data.g.fileBlob b'.idx.g.fileBlob).append Params.code Faults.none Faults.none [[1]] = (.ok (some 0), a') ∧
      (b'.over a'.data.g.fileBlob a'.idx.g.fileBlob).get Params.code 1 = .error .fault :=
  have h : (List.replicate 600000 (7 : UInt8)).length = 600000 := List.length_replicate
  ⟨_, newDB, newDB, rfl, rfl, _, long_db _ h, long_reads _ h, _, cut_append _, cut_reads _ h⟩

/-- The hypotheses of `C108_cut_closed`: the second handle is opened while a record is being stored, and the writer is at
rest later. -/
example : ∃ c : DB, c.len = 2 ∧ c.get Params.code 2 = .ok none := by
  have hr := two_reached Params.code
  obtain ⟨_, _, _, _, _, _, c, _, hl, hget⟩ := C108_cut_closed Params.code (by decide) (by decide)
    ⟨twoDB Params.code, [[1], [2]], 2, .append [[3]], (twoDB Params.code).data.g.fileBlob,
      (twoDB Params.code).idx.g.fileBlob, 0⟩
    ⟨(step Params.code (twoDB Params.code) (.append [[3]])).2, [[1], [2], [3]], 3, .len,
      (step Params.code (twoDB Params.code) (.append [[3]])).2.data.g.fileBlob,
      (step Params.code (twoDB Params.code) (.append [[3]])).2.idx.g.fileBlob, 0⟩
    hr (.idle (some_blob rfl) (some_blob rfl)) (by decide)
    (.single ⟨.ends trivial (some_blob rfl) (some_blob rfl), by decide⟩) (some_blob rfl) (some_blob rfl)
  exact ⟨c, hl, hget 2 (by decide)⟩

end Verif.Props
