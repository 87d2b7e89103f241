import Verif.Fraos.Crash

/-!
# Recovering from any failed append

After an append that failed in any way the handle is given up: the directory is closed or the process
dies, and the directory is opened again. Until then the program may read, whatever the reads answer.
-/

namespace Verif.Fraos

/-- A call, an append during which the operating system fails as given, or the death of the process
followed by a new process opening the directory. -/
inductive ROp where
  | call (op : Op)
  | failing (fd fi : Faults) (batch : List (List UInt8))
  | die

/-- One step of the model. Death leaves both files as they are: nothing is cut (compare
database.rs:164-169). -/
def rStep (p : Params) (db : DB) : ROp → Resp × DB
  | .call op => step p db op
  | .failing fd fi batch =>
    let (r, db1) := db.append p fd fi batch
    (.seqno r, db1)
  | .die =>
    match DB.openDB p db.data.g.file db.idx.g.file true with
    | .error e => (.opened (.error e), db)
    | .ok db1 => (.opened (.ok ()), db1)

/-- The history with the answers of the model. -/
def rTrace (p : Params) : DB → List ROp → List (ROp × Resp)
  | _, [] => []
  | db, op :: ops => (op, (rStep p db op).1) :: rTrace p (rStep p db op).2 ops

/-- Is the answer a failure? -/
def Resp.failed : Resp → Bool
  | .seqno (.error _) => true
  | _ => false

/-- The user is prudent: after an append was answered with an error they append nothing more before the
directory has been opened again. `lost`: an error has been seen since the directory was opened. -/
def Prudent : Bool → List (ROp × Resp) → Prop
  | _, [] => True
  | _, (.die, _) :: t => Prudent false t
  | _, (.call .reopen, _) :: t => Prudent false t
  | lost, (.call (.append _), _) :: t => lost = false ∧ Prudent false t
  | lost, (.call (.putSeqno _), _) :: t => lost = false ∧ Prudent false t
  | lost, (.failing _ _ _, r) :: t => lost = false ∧ Prudent r.failed t
  | lost, (.call _, _) :: t => Prudent lost t

/-- How far a handle is to be trusted: nothing has failed since the directory was opened; an append has
failed, after `n` records were acknowledged; a mapping has been lost. -/
inductive Trust where
  | sound
  | pending (n : Nat)
  | broken

/-- What reads answer between a failed append and the next opening, which shows `log`: the first `n` records
of it are the acknowledged ones. -/
def pendingAnswer (n : Nat) (log : List (List UInt8)) : Op → Option Resp
  | .get i => some (.record (.ok log[i]?))
  | .len => some (.number n)
  | .isEmpty => some (.flag (n == 0))
  | .last => some (.record (.ok (log.take n).getLast?))
  | _ => none

/-- What a prudent user may rely on: an append reported as stored is stored; one reported as failed
has, once the directory has been opened again, left nothing or its whole batch; opening always succeeds;
and all other answers are those of the list of records. After an error the acknowledged records can still
be read and are those counted, unless making a retired mapping read-only failed: then nothing is said
about reads. `log` is what the next opening shows. -/
def Recovers : Trust → List (List UInt8) → List (ROp × Resp) → Prop
  | _, _, [] => True
  | _, log, (.die, r) :: t => r = .opened (.ok ()) ∧ Recovers .sound log t
  | .sound, log, (.call op, r) :: t =>
    r = (specStep true log op).1 ∧ Recovers .sound (specStep true log op).2 t
  | .sound, log, (.failing fd fi batch, r) :: t =>
    (r = (specStep true log (.append batch)).1 ∧
      Recovers .sound (specStep true log (.append batch)).2 t) ∨
    (∃ e, r = .seqno (.error e) ∧ ∃ log', (log' = log ∨ log' = log ++ batch) ∧
      (Recovers (.pending log.length) log' t ∨
        (fd.protect = true ∨ fi.protect = true) ∧ Recovers .broken log' t))
  | .pending _, log, (.call .reopen, r) :: t => r = .opened (.ok ()) ∧ Recovers .sound log t
  | .pending n, log, (.call op, r) :: t => (∀ x, pendingAnswer n log op = some x → r = x) ∧ Recovers (.pending n) log t
  | .pending n, log, _ :: t => Recovers (.pending n) log t
  | .broken, log, (.call .reopen, r) :: t => r = .opened (.ok ()) ∧ Recovers .sound log t
  | .broken, log, _ :: t => Recovers .broken log t

/-- Bytes of a step. -/
def ROp.bytes : ROp → Nat
  | .call op => op.bytes
  | .failing _ _ batch => (batch.map List.length).sum
  | .die => 0

/-- Sequence numbers below `2^60`. -/
def ROp.small : ROp → Prop
  | .call op => op.small
  | _ => True

/-! ### Lemmas -/

theorem Prudent.mono {t : List (ROp × Resp)} (h : Prudent true t) : Prudent false t := by
  induction t with
  | nil => trivial
  | cons x t ih =>
    obtain ⟨op, r⟩ := x
    cases op with
    | die => simpa [Prudent] using h
    | failing fd fi b => simp [Prudent] at h
    | call op => cases op <;> simp [Prudent] at h ⊢ <;> first | exact h | exact ih h

/-- Making a retired mapping read-only is the last thing that can fail. -/
theorem makeRoom_protect (p : Params) (g : GM) (ft : Faults) (ext : Nat) :
    g.makeRoom p ft ext = g.makeRoom p { ft with protect := false } ext ∨
    ∃ g1 ms, ft.protect = true ∧ g.makeRoom p { ft with protect := false } ext = (.ok 0, g1) ∧
      g.makeRoom p ft ext = (.error .protect, { g1 with maps := ms }) := by
  have hc : ∀ s o, g.createMmap { ft with protect := false } s o = g.createMmap ft s o := by
    intro s o; rfl
  unfold GM.makeRoom
  simp only [hc]
  split
  · left; rfl
  · rename_i a _
    split
    · left; rfl
    · split
      · left; rfl
      · split
        · left; rfl
        · split
          · left; rfl
          · by_cases hp : ft.protect = true
            · right
              simp only [hp, if_true, Bool.false_eq_true, if_false]
              exact ⟨_, _, trivial, rfl, rfl⟩
            · left
              simp [hp]

theorem rearrange_remap {p : Params} {g : GM} {ft : Faults} (h : ft.remap = true) :
    (∃ e, g.rearrange p ft = (.error e, g)) ∨ g.rearrange p ft = (.ok (), g) := by
  unfold GM.rearrange
  simp only [h, if_true]
  split
  · exact .inr rfl
  · split
    · exact .inr rfl
    · exact .inl ⟨_, rfl⟩

theorem Ready.len {k : Nat} {g0 g : GM} {C : List UInt8} {ext at_ : Nat} (h : Ready k g0 g C ext at_) :
    g.len = C.length + ext := by
  obtain ⟨a, ha, h1, h2, _⟩ := h.ex
  unfold GM.len
  rw [ha]
  simp only
  rw [a.bounds.stop_eq]
  omega

/-- `grow` under any failures: all went well, or the file has at most been extended, or the new bytes
have been stored nevertheless. -/
theorem grow_any {p : Params} {g : GM} {C bs : List UInt8} (h : GMOK g C) (hr : Room g) (ft : Faults)
    (hbs : 0 < bs.length) {f : Nat → List UInt8 × Option Err}
    (hf : ∀ n, bs.length ≤ n → f n = (bs, none)) :
    (∃ g1, g.grow p ft bs.length f = (.ok (), g1) ∧ GMOK g1 (C ++ bs) ∧ Room g1 ∧
      (∀ b ∈ g1.bounds, b ∈ g.bounds ∨ b = C.length + bs.length) ∧ g1.writable = g.writable ∧
      ∃ fs, Stretch C.length (g.newSize p bs.length) g.file fs ∧ g1.file = fs.map (·.write C.length bs)) ∨
    (∃ e g1, g.grow p ft bs.length f = (.error e, g1) ∧ g1.writable = g.writable ∧
      ∃ fs, Stretch C.length (g.newSize p bs.length) g.file fs ∧
        ((g1.file = fs ∧ (g1.len = C.length ∨ g1.len = C.length + bs.length) ∧
          (ft.protect = true ∨ GMOK g1 C ∧ g1.bounds = g.bounds)) ∨
        (g1.file = fs.map (·.write C.length bs) ∧ GMOK g1 (C ++ bs) ∧
          ∀ b ∈ g1.bounds, b ∈ g.bounds ∨ b = C.length + bs.length))) := by
  unfold GM.grow
  rw [if_neg (by omega)]
  have hnp := makeRoom_spec (p := p) h hr (ft := { ft with protect := false }) rfl hbs
  rcases makeRoom_protect p g ft bs.length with hmk | ⟨g1, ms, hpt, e1, e2⟩
  · rw [hmk]
    rcases hnp with ⟨at_, g1, e, hrd⟩ | ⟨er, g1, e, hu, he⟩
    · simp only [e]
      obtain ⟨a, ha, hst, hsz, hlen, hmem, hanon⟩ := hrd.ex
      unfold GM.writeOut
      simp only [ha]
      rw [if_neg (by omega), hf _ (by omega)]
      obtain ⟨g2, e2, hok2, hr2, hb2, hf2, _, hw2⟩ := store_spec hrd h.file ha
      simp only [e2]
      by_cases hfl : ft.flush = true
      · right
        rw [if_pos hfl]
        exact ⟨_, g2, rfl, by rw [hw2, hrd.writable], g1.file, hrd.file, .inr ⟨hf2, hok2, fun b hb => by
          rw [hb2] at hb
          exact hrd.bounds b hb⟩⟩
      · rw [if_neg hfl]
        by_cases hrm : ft.remap = true
        · rcases rearrange_remap (p := p) (g := g2) hrm with ⟨e, he⟩ | he
          · right
            rw [he]
            exact ⟨_, g2, rfl, by rw [hw2, hrd.writable], g1.file, hrd.file, .inr ⟨hf2, hok2, fun b hb => by
          rw [hb2] at hb
          exact hrd.bounds b hb⟩⟩
          · left
            rw [he]
            refine ⟨g2, rfl, hok2, hr2, ?_, by rw [hw2, hrd.writable], g1.file, hrd.file, hf2⟩
            intro b hb
            rw [hb2] at hb
            exact hrd.bounds b hb
        · left
          obtain ⟨g3, e3, hok3, hr3, hb3, hf3, hw3, _⟩ :=
            rearrange_spec (p := p) hok2 hr2 (by simpa using hrm)
          refine ⟨g3, e3, hok3, hr3, ?_, by rw [hw3, hw2, hrd.writable], g1.file, hrd.file, by rw [hf3, hf2]⟩
          intro b hb
          have := hb3 b hb
          rw [hb2] at this
          exact hrd.bounds b this
    · right
      simp only [e]
      refine ⟨er, g1, rfl, hu.writable, g1.file, hu.file, .inl ⟨rfl, .inl ?_, .inr ⟨hu.ok, hu.bounds⟩⟩⟩
      exact hu.ok.len_eq
  · right
    rcases hnp with ⟨at_, g1', e, hrd⟩ | ⟨er, g1', e, _⟩
    · rw [e1] at e; cases e
      simp only [e2]
      refine ⟨_, _, rfl, hrd.writable, g1.file, hrd.file, .inl ⟨rfl, .inr ?_, .inl hpt⟩⟩
      exact hrd.len
    · rw [e1] at e; cases e

/-- A file of a database after a failed `grow`, cut or not. -/
structure FileLeft (g1 : GM) (C : List UInt8) : Prop where
  ex : ∃ f, g1.file = some f ∧ FileHas f C
  len : C.length ≤ g1.len

theorem FileLeft.cut {g1 : GM} {C : List UInt8} (h : FileLeft g1 C) (hw : g1.writable = true) :
    ∃ f, g1.file = some f ∧ g1.shrink.file = some (f.setLen g1.len) ∧ FileHas f C ∧
      FileHas (f.setLen g1.len) C := by
  obtain ⟨f, hf, hF⟩ := h.ex
  refine ⟨f, hf, ?_, hF, hF.setLen h.len⟩
  unfold GM.shrink
  simp [hf, hw]

theorem stretch_some {n k : Nat} {f : Blob} {fs : Option Blob} (h : Stretch n k (some f) fs) :
    ∃ f1, fs = some f1 := by
  rcases h with rfl | ⟨b, _, rfl⟩ <;> exact ⟨_, rfl⟩

theorem FileHas.prefix {f : Blob} {C D : List UInt8} (h : FileHas f (C ++ D)) : FileHas f C := by
  refine ⟨by have := h.1; simp at this; omega, ?_⟩
  intro i hi
  rw [← h.2 i (by simp; omega), List.getElem?_append_left hi]

/-- What the next opening finds. -/
structure Lost (p : Params) (db : DB) (log : List (List UInt8)) (used : Nat) : Prop where
  closed : ∃ fd fi, db.drop.data.g.file = some fd ∧ db.drop.idx.g.file = some fi ∧
    DiskOK fd fi log used ∧ fi.len ≤ 16 * used + p.minMmap
  dead : ∃ fd fi, db.data.g.file = some fd ∧ db.idx.g.file = some fi ∧
    DiskOK fd fi log used ∧ fi.len ≤ 16 * used + p.minMmap

/-- What the handle reads meanwhile: but for the sizes it believes in, it is a database with `log`. -/
structure Live (db : DB) (log : List (List UInt8)) (n : Nat) : Prop where
  ex : ∃ db' es C, DBInv db' es C log ∧ db'.data.g = db.data.g ∧ db'.idx.g = db.idx.g
  len : db.len = n
  le : n ≤ log.length

theorem getEntry_g {p : Params} {a b : Appender} (h : a.g = b.g) (i : Nat) : getEntry p a i = getEntry p b i := by
  unfold getEntry
  rw [h]

theorem getRecord_g {a b : Appender} (h : a.g = b.g) (o l : Nat) : getRecord a o l = getRecord b o l := by
  unfold getRecord
  rw [h]

theorem Live.get {p : Params} {db : DB} {log : List (List UInt8)} {n : Nat} (h : Live db log n) {i : Nat}
    (hi : i < 2 ^ 60) : db.get p i = .ok log[i]? := by
  obtain ⟨db', es, C, hinv, hd, hi'⟩ := h.ex
  rw [← hinv.get_ok (p := p) hi]
  unfold DB.get
  rw [getEntry_g hi']
  split
  · rfl
  · rfl
  · rw [getRecord_g hd]

theorem Live.answers {p : Params} {db : DB} {log : List (List UInt8)} {n : Nat} (h : Live db log n) {op : Op}
    (hs : op.small) {x : Resp} (hx : pendingAnswer n log op = some x) :
    (step p db op).1 = x ∧ (step p db op).2 = db := by
  cases op with
  | append b => cases hx
  | putSeqno b => cases hx
  | reopen => cases hx
  | get i =>
    obtain rfl := Option.some.inj hx
    simp only [step]
    rw [h.get hs]
    exact ⟨rfl, trivial⟩
  | len =>
    obtain rfl := Option.some.inj hx
    simp only [step]
    rw [h.len]
    exact ⟨rfl, trivial⟩
  | isEmpty =>
    obtain rfl := Option.some.inj hx
    simp only [step, DB.isEmpty]
    rw [h.len]
    exact ⟨rfl, trivial⟩
  | last =>
    obtain rfl := Option.some.inj hx
    refine ⟨?_, rfl⟩
    have he : db.isEmpty = (n == 0) := by unfold DB.isEmpty; rw [h.len]
    simp only [step, DB.last]
    rw [h.len]
    simp only [he]
    obtain ⟨db', es, C, hinv, _⟩ := h.ex
    have := hinv.log_lt
    have hle := h.le
    by_cases hc : n = 0
    · subst hc
      simp
    · rw [if_neg (by simpa using hc), h.get (by omega), List.getLast?_eq_getElem?, List.getElem?_take, List.length_take,
        Nat.min_eq_left hle, if_pos (by omega)]

theorem disk_opens {p : Params} {fd fi : Blob} {log : List (List UInt8)} {used : Nat}
    (h : DiskOK fd fi log used) (hl : fi.len ≤ 16 * used + p.minMmap) :
    ∃ db, DB.openDB p (some fd) (some fi) true = .ok db ∧ Good p true db log used := by
  obtain ⟨db1, es1, C1, e, hinv1, hr1, hle, hwd, hwi, hfd1, hfi1⟩ := open_spec (p := p) h true
  refine ⟨db1, e, ⟨es1, C1, hinv1, hle⟩, hr1, hwd, hwi, by simp [hfi1], ?_⟩
  intro f hf
  rw [hfi1] at hf; cases hf
  exact hl

theorem DiskOK.more {fd fi : Blob} {log : List (List UInt8)} {m n : Nat} (h : DiskOK fd fi log m)
    (hmn : m ≤ n) : DiskOK fd fi log n := by
  obtain ⟨es, C, h1, h2, h3, h4, h5, h6, h7⟩ := h.ex
  exact ⟨⟨es, C, h1, h2, h3, h4, h5, h6, by omega⟩, h.idxFits⟩

theorem Lost.more {p : Params} {db : DB} {log : List (List UInt8)} {m n : Nat} (h : Lost p db log m)
    (hmn : m ≤ n) : Lost p db log n := by
  obtain ⟨fd, fi, h1, h2, h3, h4⟩ := h.closed
  obtain ⟨fd', fi', h1', h2', h3', h4'⟩ := h.dead
  exact ⟨⟨fd, fi, h1, h2, h3.more hmn, by omega⟩, ⟨fd', fi', h1', h2', h3'.more hmn, by omega⟩⟩

theorem batch_le_flatten {l : List (List UInt8)} (hl : ∀ r ∈ l, r ≠ []) : l.length ≤ l.flatten.length := by
  induction l with
  | nil => simp
  | cons r l ih =>
    have h6 := List.length_pos_of_ne_nil (hl r (by simp))
    have h7 := ih (fun r hr => hl r (by simp [hr]))
    simp only [List.flatten_cons, List.length_append, List.length_cons]; omega

/-- The two files of a database some of whose parts were touched by a failed append. -/
theorem lost_of {p : Params} (hm : p.minMmap < 2 ^ 62) {db : DB} {log : List (List UInt8)} {used : Nat}
    {es : List (Nat × Nat)} {C : List UInt8} (hd : FileLeft db.data.g C)
    (hi : FileLeft db.idx.g (entriesBytes es))
    (ht : ∀ f, db.idx.g.file = some f → TailZ f (16 * es.length) ∧ 16 ∣ f.len ∧ f.len ≤ 16 * used + p.minMmap)
    (h16 : 16 ∣ db.idx.g.len) (hle : db.idx.g.len ≤ 16 * used + p.minMmap)
    (hrecs : Recs C [] es log) (hC : C.length ≤ used) (hfit : used < 2 ^ 59)
    (hwd : db.data.g.writable = true) (hwi : db.idx.g.writable = true) : Lost p db log used := by
  obtain ⟨fd, hfd, hcd, hFd, hFd'⟩ := hd.cut hwd
  obtain ⟨fi, hfi, hci, hFi, hFi'⟩ := hi.cut hwi
  obtain ⟨t1, t2, t3⟩ := ht fi hfi
  refine ⟨⟨_, _, hcd, hci, ⟨⟨es, C, hFi', t1.setLen _, by simpa using h16, hFd', hrecs, by omega, hC⟩, ?_⟩, ?_⟩,
    ⟨_, _, hfd, hfi, ⟨⟨es, C, hFi, t1, t2, hFd, hrecs, by omega, hC⟩, by omega⟩, t3⟩⟩
  · simp only [Blob.setLen_len]; omega
  · simpa using hle

theorem GMOK.left {g : GM} {C : List UInt8} (h : GMOK g C) (hs : g.file.isSome = true) : FileLeft g C := by
  obtain ⟨f, hf⟩ := Option.isSome_iff_exists.mp hs
  exact ⟨⟨f, hf, h.file f hf⟩, h.len_eq.ge⟩

/-- An append under any failures, on disk. -/
theorem append_any {p : Params} (hp : 16 ∣ p.minMmap) (hm : p.minMmap < 2 ^ 62) {db : DB}
    {log : List (List UInt8)} {used : Nat} (h : Good p true db log used) (fd fi : Faults)
    {batch : List (List UInt8)} (hb : batch ≠ []) (hne : ∀ r ∈ batch, r ≠ [])
    (hfit : used + (batch.map List.length).sum < 2 ^ 59) :
    (∃ db1, db.append p fd fi batch = (.ok (some log.length), db1) ∧
      Good p true db1 (log ++ batch) (used + (batch.map List.length).sum)) ∨
    (∃ e db1, db.append p fd fi batch = (.error e, db1) ∧
      ∃ log', (log' = log ∨ log' = log ++ batch) ∧ Lost p db1 log' (used + (batch.map List.length).sum) ∧
        (Live db1 log' log.length ∨ fd.protect = true ∨ fi.protect = true)) := by
  obtain ⟨es, C, hinv, hC⟩ := h.ex
  rw [← List.length_flatten] at hfit ⊢
  have hbl := batch_le_flatten hne
  have hcnt := hinv.recs.count_le
  have hpos : 0 < batch.flatten.length := by have := List.length_pos_of_ne_nil hb; omega
  have hbe : batch.isEmpty = false := by cases batch with
    | nil => exact absurd rfl hb
    | cons => rfl
  have hmi := h.mode
  have hmd := hinv.mode
  rw [hmi] at hmd
  obtain ⟨bi, hbi⟩ := Option.isSome_iff_exists.mp hmi
  obtain ⟨bd, hbd⟩ := Option.isSome_iff_exists.mp hmd
  have htail : ∀ f, db.idx.g.file = some f → TailZ f (16 * es.length) ∧ 16 ∣ f.len ∧
      f.len ≤ 16 * (used + batch.flatten.length) + p.minMmap := by
    intro f hf
    have := h.idxLen f hf
    exact ⟨(hinv.tail f hf).1, (hinv.tail f hf).2, by omega⟩
  have hilen : db.idx.g.len = 16 * es.length := by rw [hinv.idxOK.len_eq]; simp
  have hrn : Recs (C ++ batch.flatten) [] (entriesFrom C.length batch) batch :=
    entriesFrom_recs C batch hne (by simp)
  have hro : Recs (C ++ batch.flatten) [] es log := hinv.recs.mono _ (by simp)
  have hra : Recs (C ++ batch.flatten) [] (es ++ entriesFrom C.length batch) (log ++ batch) :=
    hro.append hrn (fun e he => (hinv.recs.mem he).2) (fun e he => (entriesFrom_ge he).1)
  unfold DB.append
  rw [hbe]
  simp only [Bool.false_eq_true, if_false]
  unfold flatAppend
  rw [hbe, any_isEmpty_false hne, ← List.length_flatten]
  simp only [Bool.false_eq_true, if_false]
  unfold Appender.append
  rw [if_neg (by omega)]
  rcases grow_any (p := p) hinv.dataOK h.room.2 fd hpos (f := writeRecords batch)
    (by intro n hn; unfold writeRecords; rw [if_pos hn]) with
    ⟨g1, e, hok, hroom, hbd1, hw, fs, hs, hf⟩ | ⟨er, g1, e, hw, fs, hs, hcase⟩
  · simp only [e]
    rw [hbd] at hs
    obtain ⟨f1, rfl⟩ := stretch_some hs
    have hmode1 : g1.file.isSome = true := by rw [hf]; rfl
    have hrb : Recs (C ++ batch.flatten) g1.bounds (es ++ entriesFrom C.length batch) (log ++ batch) := by
      apply hra.bounds
      intro b hb x hx
      rcases List.mem_append.mp hx with hx' | hx'
      · have hm1 := hinv.recs.mem hx'
        rcases hbd1 b hb with hb | hb
        · have h9 := hinv.recs.each
          rw [List.forall₂_iff_get] at h9
          obtain ⟨i, hi, rfl⟩ := List.mem_iff_get.mp hx'
          obtain ⟨_, _, _, _, h10⟩ := h9.2 i i.2 (by rw [← h9.1]; exact i.2)
          exact h10 b hb
        · omega
      · have hge := entriesFrom_ge hx'
        rcases hbd1 b hb with hb | hb
        · obtain ⟨c, hc, y, hy, rfl⟩ := mem_globalBounds.mp hb
          have h1 := hinv.dataOK.chain.start_ge hc
          have h2 := (hinv.dataOK.chain.ok hc).le_size hy
          have := c.stop_eq
          omega
        · omega
    have hne2 : ∀ x ∈ entriesFrom db.data.size batch, x.2 ≠ 0 := by
      rw [hinv.dataSize]
      intro x hx
      have := hrn.mem hx
      omega
    have hnl : (entriesFrom db.data.size batch).length = batch.length := entriesFrom_length _ _
    have hposn : 0 < (entriesBytes (entriesFrom db.data.size batch)).length := by
      rw [entriesBytes_length, hnl]
      have := List.length_pos_of_ne_nil hb
      omega
    unfold idxAppend
    have hie : (entriesFrom db.data.size batch).isEmpty = false := by
      cases hh : entriesFrom db.data.size batch with
      | nil => rw [hh] at hposn; simp [entriesBytes] at hposn
      | cons => rfl
    have hia : (entriesFrom db.data.size batch).any (fun e => e.2 == 0) = false := by
      rw [List.any_eq_false]
      intro e he
      have := hne2 e he
      simpa using this
    rw [hie, hia]
    simp only [Bool.false_eq_true, if_false]
    unfold Appender.append
    rw [← entriesBytes_length, if_neg (by omega)]
    have hk : 16 ∣ db.idx.g.newSize p (entriesBytes (entriesFrom db.data.size batch)).length :=
      newSize_dvd hp (by rw [entriesBytes_length]; exact ⟨_, rfl⟩)
    have hksz := newSize_le p db.idx.g (entriesBytes (entriesFrom db.data.size batch)).length
    rw [entriesBytes_length, hnl] at hksz
    have hstr : ∀ {fs : Option Blob}, Stretch (entriesBytes es).length
        (db.idx.g.newSize p (entriesBytes (entriesFrom db.data.size batch)).length) db.idx.g.file fs →
        ∀ f, fs = some f → TailZ f (16 * es.length) ∧ 16 ∣ f.len ∧
          f.len ≤ 16 * (used + batch.flatten.length) + p.minMmap := by
      intro fs hs f hf
      rw [entriesBytes_length] at hs
      obtain ⟨h1, h2⟩ := hs.tail ⟨_, rfl⟩ hk hinv.tail f hf
      refine ⟨h1, h2, ?_⟩
      rcases hs.lenStep f hf with h3 | ⟨b, h3, h4⟩
      · rw [entriesBytes_length, hnl] at h3; omega
      · have := h.idxLen b h3; omega
    rcases grow_any (p := p) hinv.idxOK h.room.1 fi hposn (f := writeEntries (entriesFrom db.data.size batch))
      (by
        intro n hn
        rw [entriesBytes_length] at hn
        unfold writeEntries; rw [if_neg (by omega)]) with
      ⟨g2, e2, hok2, hroom2, hbd2, hw2, fs2, hs2, hf2⟩ | ⟨er, g2, e2, hw2, fs2, hs2, hcase⟩
    · left
      simp only [e2]
      have hstr2 := hstr hs2
      rw [hbi] at hs2
      obtain ⟨f2, rfl⟩ := stretch_some hs2
      obtain ⟨t1, t2, t3⟩ := hstr2 f2 rfl
      rw [hinv.dataSize] at *
      refine ⟨_, by unfold idxLen; rw [hinv.idxSize, show 16 * es.length / 16 = es.length by omega,
        hinv.recs.length], ⟨es ++ entriesFrom C.length batch, _, ⟨?_, ?_, ?_, hok, ?_, ?_, ?_, ?_, ?_⟩, ?_⟩, ⟨hroom2, hroom⟩, ?_, ?_, ?_, ?_⟩
      · rw [entriesBytes_append]; exact hok2
      · intro b hb
        rcases hbd2 b hb with hb | hb
        · exact hinv.idxBounds b hb
        · rw [entriesBytes_length, entriesBytes_length] at hb
          exact ⟨es.length + (entriesFrom C.length batch).length, by omega⟩
      · simp only [entriesBytes_length, List.length_append, ← hinv.recs.length]; ring
      · simp
      · exact hrb
      · rw [List.length_append]; omega
      · intro f hff
        simp only at hff
        rw [hf2] at hff
        simp only [Option.map_some, Option.some.injEq] at hff
        subst hff
        refine ⟨?_, by simpa using t2⟩
        have hw := t1.write (entriesBytes (entriesFrom C.length batch))
        rw [entriesBytes_length] at hw
        rw [entriesBytes_length, List.length_append, Nat.mul_add]; exact hw
      · simp only; rw [hmode1, hf2]; rfl
      · rw [List.length_append]; omega
      · simp only; rw [hw, h.wd]
      · simp only; rw [hw2, h.wi]
      · simp only; rw [hf2]; rfl
      · intro f hff
        simp only at hff
        rw [hf2] at hff
        simp only [Option.map_some, Option.some.injEq] at hff
        subst hff
        simpa using t3
    · right
      simp only [e2]
      refine ⟨er, _, rfl, ?_⟩
      have hstr2 := hstr hs2
      rw [hbi] at hs2
      obtain ⟨f2, rfl⟩ := stretch_some hs2
      obtain ⟨t1, t2, t3⟩ := hstr2 f2 rfl
      have hbnd : ∀ b ∈ g1.bounds, b ∈ db.data.g.bounds ∨ C.length ≤ b := by
        intro b hb
        rcases hbd1 b hb with h | h
        · exact .inl h
        · exact .inr (by omega)
      rcases hcase with ⟨hf2, hl2, hlive⟩ | ⟨hf2, hok2, hbd2⟩
      · refine ⟨log, .inl rfl, ?_, ?_⟩
        rotate_left
        · rcases hlive with h4 | ⟨h4, h5⟩
          · exact .inr (.inr h4)
          · left
            refine ⟨⟨⟨⟨g1, db.data.size + batch.flatten.length⟩, ⟨g2, db.idx.size⟩⟩, es, C ++ batch.flatten,
              ⟨h4, ?_, hinv.idxSize, hok, ?_, hinv.recs.mono _ hbnd, ?_, ?_, ?_⟩, rfl, rfl⟩,
              hinv.len_eq, le_refl _⟩
            · intro b hb
              simp only [h5] at hb
              exact hinv.idxBounds b hb
            · simp only [List.length_append, hinv.dataSize]
            · rw [List.length_append]; omega
            · intro f hff
              simp only [hf2, Option.some.injEq] at hff
              subst hff
              exact ⟨t1, t2⟩
            · simp only; rw [hmode1, hf2]; rfl
        refine lost_of hm (es := es) (C := C ++ batch.flatten) (hok.left hmode1)
          ⟨⟨f2, hf2, hs2.fileHas (by intro b hb; cases hb; exact hinv.idxOK.file bi hbi) f2 rfl⟩, ?_⟩
          ?_ ?_ ?_ hro ?_ hfit ?_ ?_
        · rcases hl2 with h | h <;> simp only [h] <;> omega
        · intro f hff
          simp only [hf2, Option.some.injEq] at hff
          subst hff
          exact ⟨t1, t2, t3⟩
        · simp only
          rcases hl2 with h | h <;> rw [h] <;> simp only [entriesBytes_length]
          · exact ⟨_, rfl⟩
          · exact ⟨es.length + (entriesFrom db.data.size batch).length, by ring⟩
        · simp only
          rcases hl2 with h | h <;> rw [h] <;> simp only [entriesBytes_length, hnl] <;> omega
        · rw [List.length_append]; omega
        · simp only; rw [hw, h.wd]
        · simp only; rw [hw2, h.wi]
      · rw [← entriesBytes_append, hinv.dataSize] at hok2
        rw [hinv.dataSize] at hf2 hnl hbd2
        have htl : ∀ f, g2.file = some f → TailZ f (16 * (es ++ entriesFrom C.length batch).length) ∧ 16 ∣ f.len := by
          intro f hff
          simp only [hf2, Option.map_some, Option.some.injEq] at hff
          subst hff
          refine ⟨?_, by simpa using t2⟩
          have hw := t1.write (entriesBytes (entriesFrom C.length batch))
          rw [entriesBytes_length] at hw
          rw [entriesBytes_length, List.length_append, Nat.mul_add]; exact hw
        refine ⟨log ++ batch, .inr rfl, ?_, ?_⟩
        rotate_left
        · left
          refine ⟨⟨⟨⟨g1, db.data.size + batch.flatten.length⟩, ⟨g2, 16 * (es ++ entriesFrom C.length batch).length⟩⟩,
            es ++ entriesFrom C.length batch, C ++ batch.flatten,
            ⟨hok2, ?_, rfl, hok, ?_, ?_, ?_, htl, ?_⟩, rfl, rfl⟩, hinv.len_eq, by simp⟩
          · intro b hb
            rcases hbd2 b hb with hb | hb
            · exact hinv.idxBounds b hb
            · rw [entriesBytes_length, entriesBytes_length] at hb
              exact ⟨es.length + (entriesFrom C.length batch).length, by omega⟩
          · simp only [List.length_append, hinv.dataSize]
          · exact hrb
          · rw [List.length_append]; omega
          · simp only; rw [hmode1, hf2]; rfl
        refine lost_of hm (es := es ++ entriesFrom C.length batch) (C := C ++ batch.flatten)
          (hok.left hmode1) (hok2.left (by rw [hf2]; rfl)) ?_ ?_ ?_ hra ?_ hfit ?_ ?_
        · intro f hff
          simp only [hf2, Option.map_some, Option.some.injEq] at hff
          subst hff
          refine ⟨?_, by simpa using t2, by simpa using t3⟩
          have hw := t1.write (entriesBytes (entriesFrom C.length batch))
          rw [entriesBytes_length] at hw
          rw [entriesBytes_length, List.length_append, Nat.mul_add]; exact hw
        · simp only; rw [hok2.len_eq, entriesBytes_length]; exact ⟨_, rfl⟩
        · simp only; rw [hok2.len_eq, entriesBytes_length, List.length_append, hnl]; omega
        · rw [List.length_append]; omega
        · simp only; rw [hw, h.wd]
        · simp only; rw [hw2, h.wi]
  · right
    simp only [e]
    rw [hbd] at hs
    obtain ⟨f1, rfl⟩ := stretch_some hs
    refine ⟨er, _, rfl, log, .inl rfl, ?_, ?_⟩
    rotate_left
    · rcases hcase with ⟨hf1, hl1, h4 | ⟨h4, h5⟩⟩ | ⟨hf1, hok1, hbd1⟩
      · exact .inr (.inl h4)
      · left
        refine ⟨⟨⟨⟨g1, C.length⟩, db.idx⟩, es, C, ⟨hinv.idxOK, hinv.idxBounds, hinv.idxSize, h4, rfl, ?_, hinv.fits,
          hinv.tail, ?_⟩, rfl, rfl⟩, hinv.len_eq, le_refl _⟩
        · simp only [h5]; exact hinv.recs
        · simp only; rw [hf1, hmi]; rfl
      · left
        refine ⟨⟨⟨⟨g1, (C ++ batch.flatten).length⟩, db.idx⟩, es, C ++ batch.flatten, ⟨hinv.idxOK, hinv.idxBounds,
          hinv.idxSize, hok1, rfl, hinv.recs.mono _ ?_, ?_, hinv.tail, ?_⟩, rfl, rfl⟩, hinv.len_eq, le_refl _⟩
        · intro b hb
          rcases hbd1 b hb with h | h
          · exact .inl h
          · exact .inr (by omega)
        · rw [List.length_append]; omega
        · simp only; rw [hf1, hmi]; rfl
    refine lost_of hm (es := es) (C := C) ?_ (hinv.idxOK.left hmi) htail ?_ ?_
      (hinv.recs.bounds (by simp)) (by omega) hfit ?_ h.wi
    · rcases hcase with ⟨hf1, hl1, _⟩ | ⟨hf1, hok1, _⟩
      · refine ⟨⟨f1, hf1, hs.fileHas (by intro b hb; cases hb; exact hinv.dataOK.file bd hbd) f1 rfl⟩, ?_⟩
        rcases hl1 with h | h <;> simp only [h] <;> omega
      · obtain ⟨⟨f, hf, hF⟩, hl⟩ := hok1.left (by rw [hf1]; rfl)
        exact ⟨⟨f, hf, hF.prefix⟩, by rw [List.length_append] at hl; simp only; omega⟩
    · simp only; rw [hilen]; exact ⟨_, rfl⟩
    · simp only; rw [hilen]; omega
    · simp only; rw [hw, h.wd]

theorem Lost.reopen {p : Params} {db : DB} {log : List (List UInt8)} {used : Nat} (h : Lost p db log used) :
    ∃ db1, db.reopen p true = .ok db1 ∧ Good p true db1 log used := by
  obtain ⟨fd, fi, h1, h2, h3, h4⟩ := h.closed
  unfold DB.reopen
  rw [h1, h2]
  exact disk_opens h3 h4

theorem Lost.die {p : Params} {db : DB} {log : List (List UInt8)} {used : Nat} (h : Lost p db log used) :
    ∃ db1, DB.openDB p db.data.g.file db.idx.g.file true = .ok db1 ∧ Good p true db1 log used := by
  obtain ⟨fd, fi, h1, h2, h3, h4⟩ := h.dead
  rw [h1, h2]
  exact disk_opens h3 h4

theorem Good.die {p : Params} (hm : p.minMmap < 2 ^ 62) {db : DB} {log : List (List UInt8)} {used : Nat}
    (h : Good p true db log used) (hfit : used < 2 ^ 59) :
    ∃ db1, DB.openDB p db.data.g.file db.idx.g.file true = .ok db1 ∧ Good p true db1 log used := by
  obtain ⟨es, C, hinv, hC⟩ := h.ex
  have hmi := h.mode
  have hmd := hinv.mode
  rw [hmi] at hmd
  obtain ⟨bi, hbi⟩ := Option.isSome_iff_exists.mp hmi
  obtain ⟨bd, hbd⟩ := Option.isSome_iff_exists.mp hmd
  rw [hbi, hbd]
  have := h.idxLen bi hbi
  exact disk_opens ((hinv.disk hbd hbi (by omega)).more hC) this

theorem rTrace_recovers {p : Params} (hp : 16 ∣ p.minMmap) (hm : p.minMmap < 2 ^ 62) (ops : List ROp)
    {db : DB} {log : List (List UInt8)} {used : Nat} (hs : ∀ op ∈ ops, op.small)
    (hfit : used + (ops.map ROp.bytes).sum < 2 ^ 59) :
    (Good p true db log used → Prudent false (rTrace p db ops) → Recovers .sound log (rTrace p db ops)) ∧
    (Lost p db log used → Prudent true (rTrace p db ops) → Recovers .broken log (rTrace p db ops)) ∧
    (∀ n, Lost p db log used → Live db log n → Prudent true (rTrace p db ops) →
      Recovers (.pending n) log (rTrace p db ops)) := by
  induction ops generalizing db log used with
  | nil => exact ⟨fun _ _ => by simp [rTrace, Recovers], fun _ _ => by simp [rTrace, Recovers],
      fun _ _ _ _ => by simp [rTrace, Recovers]⟩
  | cons op ops ih =>
    simp only [List.map_cons, List.sum_cons] at hfit
    have hrest : ∀ o ∈ ops, o.small := fun o ho => hs o (by simp [ho])
    refine ⟨fun h hpr => ?_, fun h hpr => ?_, fun n h hl hpr => ?_⟩
    · cases op with
      | die =>
        obtain ⟨db1, e, hg⟩ := h.die hm (by omega)
        simp only [rTrace, rStep, e, Prudent, Recovers] at hpr ⊢
        exact ⟨trivial, (ih hrest (by omega)).1 hg hpr⟩
      | call op =>
        simp only [ROp.bytes] at hfit
        obtain ⟨e1, hg⟩ := step_good hp h (hs (.call op) (by simp)) (by omega)
        simp only [rTrace, rStep, Recovers] at hpr ⊢
        refine ⟨e1, (ih hrest (by omega)).1 hg ?_⟩
        cases op <;> simp only [Prudent] at hpr <;> first | exact hpr.2 | exact hpr
      | failing fd fi batch =>
        simp only [ROp.bytes] at hfit
        simp only [rTrace, rStep, Recovers, Prudent] at hpr ⊢
        have hpr2 : Prudent false (rTrace p (db.append p fd fi batch).2 ops) := by
          cases hres : (Resp.seqno (db.append p fd fi batch).1).failed
          · rw [hres] at hpr; exact hpr.2
          · rw [hres] at hpr; exact hpr.2.mono
        by_cases hb : batch = []
        · subst hb
          left
          simp only [append_empty, specStep, if_true] at hpr2 ⊢
          exact ⟨trivial, (ih hrest (by omega)).1 h hpr2⟩
        · by_cases he : [] ∈ batch
          · left
            rw [append_rejects db _ _ he] at hpr2 ⊢
            simp only [specStep]
            rw [if_neg hb, if_pos he]
            exact ⟨rfl, (ih hrest (by omega)).1 h hpr2⟩
          · rcases append_any hp hm h fd fi hb (fun r hr hc => he (hc ▸ hr)) (by omega) with
              ⟨db1, e, hg⟩ | ⟨er, db1, e, log', hlog, hg, hlive⟩
            · left
              simp only [e, specStep] at hpr2 ⊢
              rw [if_neg hb, if_neg he]
              exact ⟨rfl, (ih hrest (by omega)).1 hg hpr2⟩
            · right
              simp only [e, Resp.failed] at hpr ⊢
              refine ⟨er, rfl, log', hlog, ?_⟩
              rcases hlive with hlive | hlive
              · exact .inl ((ih hrest (by omega)).2.2 _ hg hlive hpr.2)
              · exact .inr ⟨hlive, (ih hrest (by omega)).2.1 hg hpr.2⟩
    · cases op with
      | die =>
        obtain ⟨db1, e, hg⟩ := h.die
        simp only [rTrace, rStep, e, Prudent, Recovers] at hpr ⊢
        exact ⟨trivial, (ih hrest (by omega)).1 hg hpr⟩
      | failing fd fi batch => simp [rTrace, Prudent] at hpr
      | call op =>
        cases op with
        | reopen =>
          obtain ⟨db1, e, hg⟩ := h.reopen
          simp only [rTrace, rStep, step, e, Prudent, Recovers] at hpr ⊢
          exact ⟨trivial, (ih hrest (by omega)).1 hg hpr⟩
        | append b => simp [rTrace, Prudent] at hpr
        | putSeqno r => simp [rTrace, Prudent] at hpr
        | _ =>
          simp only [rTrace, rStep, step, Prudent, Recovers] at hpr ⊢
          exact (ih hrest (by omega)).2.1 h hpr
    · cases op with
      | die =>
        obtain ⟨db1, e, hg⟩ := h.die
        simp only [rTrace, rStep, e, Prudent, Recovers] at hpr ⊢
        exact ⟨trivial, (ih hrest (by omega)).1 hg hpr⟩
      | failing fd fi batch => simp [rTrace, Prudent] at hpr
      | call op =>
        have hsm : op.small := hs (.call op) (by simp)
        cases op with
        | reopen =>
          obtain ⟨db1, e, hg⟩ := h.reopen
          simp only [rTrace, rStep, step, e, Prudent, Recovers] at hpr ⊢
          exact ⟨trivial, (ih hrest (by omega)).1 hg hpr⟩
        | append b => simp [rTrace, Prudent] at hpr
        | putSeqno r => simp [rTrace, Prudent] at hpr
        | get i =>
          simp only [rTrace, rStep, Prudent, Recovers] at hpr ⊢
          exact ⟨fun x hx => (hl.answers hsm hx).1, (ih hrest (by omega)).2.2 n h hl hpr⟩
        | len =>
          simp only [rTrace, rStep, Prudent, Recovers] at hpr ⊢
          exact ⟨fun x hx => (hl.answers hsm hx).1, (ih hrest (by omega)).2.2 n h hl hpr⟩
        | isEmpty =>
          simp only [rTrace, rStep, Prudent, Recovers] at hpr ⊢
          exact ⟨fun x hx => (hl.answers hsm hx).1, (ih hrest (by omega)).2.2 n h hl hpr⟩
        | last =>
          simp only [rTrace, rStep, Prudent, Recovers] at hpr ⊢
          exact ⟨fun x hx => (hl.answers hsm hx).1, (ih hrest (by omega)).2.2 n h hl hpr⟩

end Verif.Fraos
