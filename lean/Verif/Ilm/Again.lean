import Verif.Ilm.Lemmas
import Verif.Fraos.Handles
import Verif.Fraos.BesideLemmas

/-!
# Opening the directory of a map that is open

`IndexedLogMap::new` opens the log first and the key index after it. sled refuses to open a tree another handle
has open, in this process or in another one; `new` then returns with an error, and the log it had already opened
is dropped.
-/

namespace Verif.Ilm

open Verif.Fraos

variable {K V : Type}

/-- `new` with the key index and a path, storage.rs:28-60, while the map `m` of that directory is open: the answer, and `m` over the files as they are then. The log is opened from the files (storage.rs:31-34), the key index is
refused (storage.rs:45-50), the log is dropped (database.rs:164-169), which cuts the files if the log was opened for
writing. If `m` does not hold the key index the second map is made; what it does later is not modelled here. -/
def openAgain (p : Params) (m : ILM) (readonly : Bool) : Except MErr Unit × ILM :=
  match DB.openDB p m.db.data.g.file m.db.idx.g.file (!readonly) with
  | .error e => (.error (.storage e), m)
  | .ok b =>
    if m.indexed = false then (.ok (), m)
    else match b.drop.data.g.file, b.drop.idx.g.file with
    | some fd, some fi => (.error .index, { m with db := m.db.over fd fi })
    | _, _ => (.error .index, m)

/-- Calls on an open map, and openings of its directory by somebody else. -/
inductive OpenOp (K V : Type) where
  | call (op : MOp K V)
  | again (readonly : Bool)

/-- Answers of the model. -/
def openRun (p : Params) (c : Codec K V) : ILM → List Nat → List (OpenOp K V) → List (MResp V)
  | _, _, [] => []
  | m, its, .call op :: ops =>
    (mStep p c true m its op).1 :: openRun p c (mStep p c true m its op).2.1 (mStep p c true m its op).2.2 ops
  | m, its, .again readonly :: ops => .done (openAgain p m readonly).1 :: openRun p c (openAgain p m readonly).2 its ops

/-- What the user expects: an opening that is refused does nothing. -/
def openSpecRun [DecidableEq K] (c : Codec K V) : MSpec K V → List (OpenOp K V) → List (MResp V)
  | _, [] => []
  | s, .call op :: ops => (mSpecStep c true s op).1 :: openSpecRun c (mSpecStep c true s op).2 ops
  | s, .again _ :: ops => .done (.error .index) :: openSpecRun c s ops

/-- Bytes a history brings to the log. -/
def openBytes (c : Codec K V) : List (OpenOp K V) → Nat
  | [] => 0
  | .call op :: ops => op.bytes c + openBytes c ops
  | .again _ :: ops => openBytes c ops

/-- The directory is opened again only while the map holds the key index, `held`. -/
def Held : Bool → List (OpenOp K V) → Prop
  | _, [] => True
  | _, .call (.reopen indexed) :: ops => Held indexed ops
  | held, .call _ :: ops => Held held ops
  | held, .again _ :: ops => held = true ∧ Held held ops

/-- No append comes between an opening for writing that was refused after an append of the same session, and the next
reopening. `wet`: something was appended since the map was opened; `cut`: an opening for writing was refused after
that. -/
def Wary : Bool → Bool → List (OpenOp K V) → Prop
  | _, _, [] => True
  | _, _, .call (.reopen _) :: ops => Wary false false ops
  | _, cut, .call (.append _ _) :: ops => cut = false ∧ Wary true cut ops
  | wet, cut, .call _ :: ops => Wary wet cut ops
  | wet, cut, .again true :: ops => Wary wet cut ops
  | wet, cut, .again false :: ops => Wary wet (cut || wet) ops

/-! ### Lemmas -/

/-- The data file ends with the last record. -/
def Snug (db : DB) (log : List (List UInt8)) : Prop :=
  ∃ C, DBInv db (entriesFrom 0 log) C log ∧ C.length = log.flatten.length

theorem entriesFrom_append (off : Nat) (a b : List (List UInt8)) :
    entriesFrom off (a ++ b) = entriesFrom off a ++ entriesFrom (off + a.flatten.length) b := by
  induction a generalizing off with
  | nil => simp [entriesFrom]
  | cons r rs ih => simp [entriesFrom, ih, Nat.add_assoc]

theorem entriesFrom_end {off : Nat} {log : List (List UInt8)} {n : Nat} (hl : log ≠ [])
    (h : ∀ e ∈ entriesFrom off log, e.1 + e.2 ≤ n) : off + log.flatten.length ≤ n := by
  induction log generalizing off with
  | nil => exact absurd rfl hl
  | cons r rs ih =>
    cases rs with
    | nil => simpa [entriesFrom] using h (off, r.length) (by simp [entriesFrom])
    | cons r' rs' =>
      have := ih (off := off + r.length) (by simp) (fun e he => h e (by
        simp only [entriesFrom, List.mem_cons] at he ⊢; exact .inr he))
      simp only [List.flatten_cons, List.length_append] at this ⊢
      omega

theorem DBInv.snug_end {db : DB} {C : List UInt8} {log : List (List UInt8)}
    (h : DBInv db (entriesFrom 0 log) C log) : log.flatten.length ≤ C.length := by
  cases log with
  | nil => simp
  | cons r rs =>
    have := entriesFrom_end (off := 0) (log := r :: rs) (by simp) (fun e he => (h.recs.mem he).2)
    omega

theorem Snug.append {p : Params} (hp : 16 ∣ p.minMmap) {db db1 : DB} {log batch : List (List UInt8)} (h : Snug db log)
    (hr : DBRoom db) (hb : batch ≠ []) (hne : ∀ r ∈ batch, r ≠ []) (hfit : log.flatten.length + batch.flatten.length < 2 ^ 60)
    {n : Nat} (e : db.append p Faults.none Faults.none batch = (.ok (some n), db1)) : Snug db1 (log ++ batch) := by
  obtain ⟨C, hinv, hC⟩ := h
  rcases append_spec (p := p) hp hinv hr Faults.none_early Faults.none_early hb hne (by omega) with
    ⟨db2, e2, hinv1, _⟩ | ⟨er, db2, D, e2, _⟩
  · rw [e2] at e
    cases e
    refine ⟨C ++ batch.flatten, ?_, by simp [hC]⟩
    rw [entriesFrom_append, Nat.zero_add, ← hC]
    exact hinv1
  · rw [e2] at e
    cases e

theorem Snug.dropped {db : DB} {log : List (List UInt8)} (h : Snug db log) (hwd : db.data.g.writable = true)
    (hwi : db.idx.g.writable = true) : Snug db.drop log := by
  obtain ⟨C, hinv, hC⟩ := h
  exact ⟨C, hinv.dropped hwd hwi, hC⟩

/-- A handle made from the files of a database whose data end with the last record. -/
theorem Snug.opened {p : Params} {db b : DB} {log : List (List UInt8)} (h : Snug db log) {fd fi : Blob}
    (hd : db.data.g.file = some fd) (hi : db.idx.g.file = some fi) (hlt : fi.len < 2 ^ 64) (w : Bool)
    (e : DB.openDB p (some fd) (some fi) w = .ok b) : Snug b log := by
  obtain ⟨C, hinv, hC⟩ := h
  have hs := hinv.stage hd hi hlt
  have hdisk : DiskOK fd fi log log.flatten.length :=
    ⟨⟨_, C, hinv.idxOK.file fi hi, (hinv.tail fi hi).1, (hinv.tail fi hi).2, hinv.dataOK.file fd hd,
      hinv.recs.bounds (by simp), hinv.fits, by omega⟩, hlt⟩
  obtain ⟨b', es, C', e', hinv', _, hle, _, _, hfd, hfi⟩ := open_spec (p := p) hdisk w
  rw [e] at e'
  cases e'
  have hes : es = entriesFrom 0 log := (hinv'.stage hfd hfi hlt).unique hs
  subst hes
  have := DBInv.snug_end hinv'
  exact ⟨C', hinv', by omega⟩

theorem over_self {db : DB} {fd fi : Blob} (hd : db.data.g.file = some fd) (hi : db.idx.g.file = some fi) :
    db.over fd fi = db := by
  obtain ⟨⟨⟨a1, a2, a3, a4, a5⟩, a6⟩, ⟨⟨b1, b2, b3, b4, b5⟩, b6⟩⟩ := db
  subst hd hi
  rfl

/-- The map, its specification, and what was appended and cut since it was opened. -/
structure OpenRel (p : Params) (c : Codec K V) (m : ILM) (s : MSpec K V) (used : Nat) (wet cut : Bool) : Prop where
  calm : Calm p m.db (records c s.log) used wet cut
  snug : Snug m.db (records c s.log)
  view : MView c m s

namespace OpenRel

variable {p : Params} {c : Codec K V} {m : ILM} {s : MSpec K V} {used : Nat} {wet cut : Bool}

theorem rel (h : OpenRel p c m s used wet false) : MRel p c true m s used :=
  ⟨h.calm.good, h.view.encV, h.view.jr, h.view.encK, h.view.ok, h.view.indexed, h.view.its⟩

theorem files (h : OpenRel p c m s used wet cut) (hm : p.minMmap < 2 ^ 62) (hu : used < 2 ^ 59) :
    ∃ fd fi, m.db.data.g.file = some fd ∧ m.db.idx.g.file = some fi ∧ fi.len < 2 ^ 64 := by
  obtain ⟨C, hinv, _⟩ := h.snug
  have h1 := h.calm.mode
  have h2 := hinv.mode
  rw [h1] at h2
  obtain ⟨fi, hfi⟩ := Option.isSome_iff_exists.mp h1
  obtain ⟨fd, hfd⟩ := Option.isSome_iff_exists.mp h2
  have := h.calm.idxLen fi hfi
  exact ⟨fd, fi, hfd, hfi, by omega⟩

/-- The directory is opened again for reading. -/
theorem again_readonly (h : OpenRel p c m s used wet cut) (hm : p.minMmap < 2 ^ 62) (hu : used < 2 ^ 59)
    (hx : s.indexed = true) :
    openAgain p m true = (.error .index, m) := by
  obtain ⟨fd, fi, hd, hi, hlt⟩ := h.files hm hu
  obtain ⟨C, hinv, hC⟩ := h.snug
  obtain ⟨u, hdisk⟩ := (hinv.stage hd hi hlt).disk
  obtain ⟨b, es, C', e, hinv', _, _, hwd, hwi, hfd, hfi⟩ := open_spec (p := p) hdisk false
  have e1 : b.drop.data.g.file = some fd := by
    show b.data.g.shrink.file = _
    unfold GM.shrink
    simp only [hfd, hwd, Bool.false_eq_true, if_false]
  have e2 : b.drop.idx.g.file = some fi := by
    show b.idx.g.shrink.file = _
    unfold GM.shrink
    simp only [hfi, hwi, Bool.false_eq_true, if_false]
  unfold openAgain
  rw [hd, hi]
  have hx' : ¬ m.indexed = false := by rw [h.view.indexed, hx]; simp
  simp only [Bool.not_true, e, e1, e2, if_neg hx']
  rw [over_self hd hi]

/-- The directory is opened again for writing. -/
theorem again_writing (h : OpenRel p c m s used wet cut) (hm : p.minMmap < 2 ^ 62) (hu : used < 2 ^ 59)
    (hx : s.indexed = true) :
    openAgain p m false = (.error .index, { m with db := m.db.drop }) := by
  obtain ⟨fd, fi, hd, hi, hlt⟩ := h.files hm hu
  obtain ⟨C, hinv, hC⟩ := h.snug
  obtain ⟨u, hdisk⟩ := (hinv.stage hd hi hlt).disk
  obtain ⟨b, es0, C0, e, hinv0, _, _, hwd, hwi, hfd, hfi⟩ := open_spec (p := p) hdisk true
  obtain ⟨C', hinv', hC'⟩ := h.snug.opened hd hi hlt true e
  obtain ⟨e1, e2⟩ := hinv'.drop_over hwd hwi fd fi
  rw [over_self hfd hfi] at e1 e2
  obtain ⟨e3, e4⟩ := hinv.drop_over h.calm.wd h.calm.wi fd fi
  rw [over_self hd hi] at e3 e4
  unfold openAgain
  rw [hd, hi]
  have hx' : ¬ m.indexed = false := by rw [h.view.indexed, hx]; simp
  simp only [Bool.not_false, e, e1, e2, if_neg hx']
  rw [hC', ← hC]
  have : m.db.over (fd.setLen C.length) (fi.setLen (16 * (entriesFrom 0 (records c s.log)).length)) = m.db.drop := by
    have h1 := over_self e3 e4
    rw [← h1]
    have h2 : m.db.data.g.shrink = { m.db.data.g with file := some (fd.setLen C.length) } := by
      unfold GM.shrink
      simp only [hd, h.calm.wd, if_true]
      rw [hinv.dataOK.len_eq]
    have h3 : m.db.idx.g.shrink = { m.db.idx.g with
        file := some (fi.setLen (16 * (entriesFrom 0 (records c s.log)).length)) } := by
      unfold GM.shrink
      simp only [hi, h.calm.wi, if_true]
      rw [hinv.idxOK.len_eq, entriesBytes_length]
    unfold DB.over Appender.over DB.drop
    rw [h2, h3]
  rw [this]

theorem dropped (h : OpenRel p c m s used wet cut) : OpenRel p c { m with db := m.db.drop } s used wet (cut || wet) := by
  obtain ⟨C, hinv, hC⟩ := h.snug
  exact ⟨h.calm.dropped, h.snug.dropped h.calm.wd h.calm.wi,
    ⟨⟨_, C, hinv.dropped h.calm.wd h.calm.wi⟩, h.view.encV, h.view.jr, h.view.encK, h.view.ok, h.view.indexed,
      h.view.its⟩⟩

/-- A call that reads. -/
theorem read [DecidableEq K] (hc : c.Lawful) (h : OpenRel p c m s used wet cut) (op : MOp K V) (hop : op.Reads) :
    (mStep p c true m s.its op).1 = (mSpecStep c true s op).1 ∧
    (mStep p c true m s.its op).2.2 = (mSpecStep c true s op).2.its ∧
    OpenRel p c (mStep p c true m s.its op).2.1 (mSpecStep c true s op).2 used wet cut := by
  obtain ⟨h1, h2, h3, h4, h5⟩ := h.view.step (p := p) hc true op hop
  refine ⟨h1, h3, ?_⟩
  rw [h2]
  exact ⟨by rw [h4]; exact h.calm, by rw [h4]; exact h.snug, h5⟩

/-- The map is closed and opened again. -/
theorem reopened [DecidableEq K] (h : OpenRel p c m s used wet cut) (hm : p.minMmap < 2 ^ 62) (hu : used < 2 ^ 59)
    (indexed : Bool) :
    (mStep p c true m s.its (.reopen indexed)).1 = (mSpecStep c true s (.reopen indexed)).1 ∧
    (mStep p c true m s.its (.reopen indexed)).2.2 = (mSpecStep c true s (.reopen indexed)).2.its ∧
    OpenRel p c (mStep p c true m s.its (.reopen indexed)).2.1 (mSpecStep c true s (.reopen indexed)).2 used false
      false := by
  obtain ⟨db1, e, hg⟩ := Closable.reopen (p := p) ⟨h.calm.ex, h.calm.wd, h.calm.wi, h.calm.mode⟩
  rw [if_pos rfl] at hg
  have hact := openDB_active (by unfold DB.reopen at e; exact e)
  have hcalm : Calm p db1 (records c s.log) used false false :=
    ⟨hg.ex, fun _ => hg.room, hg.wd, hg.wi, hg.mode, hg.idxLen, fun _ => hact⟩
  obtain ⟨fd, fi, hd, hi, hlt⟩ := h.dropped.files hm hu
  have hd' : m.db.drop.data.g.file = some fd := hd
  have hi' : m.db.drop.idx.g.file = some fi := hi
  have hsnug : Snug db1 (records c s.log) := h.dropped.snug.opened hd hi hlt true (by
    unfold DB.reopen at e
    rw [hd', hi'] at e
    exact e)
  obtain ⟨es, C, hinv, _⟩ := hg.ex
  simp only [mStep, mSpecStep, reopen, e, if_true]
  exact ⟨trivial, trivial, hcalm, hsnug, ⟨es, C, hinv⟩, h.view.encV, h.view.jr, h.view.encK, h.view.ok, rfl, by simp⟩

theorem more (h : OpenRel p c m s used wet cut) {n : Nat} (hn : used ≤ n) : OpenRel p c m s n wet cut :=
  ⟨h.calm.more hn, h.snug, h.view⟩

/-- An append to files nobody cut. -/
theorem appended [DecidableEq K] (hp : 16 ∣ p.minMmap) (hc : c.Lawful) (h : OpenRel p c m s used wet false) (k : K) (v : V)
    (hfit : used + (MOp.append k v).bytes c < 2 ^ 60) :
    (mStep p c true m s.its (.append k v)).1 = (mSpecStep c true s (.append k v)).1 ∧
    (mStep p c true m s.its (.append k v)).2.2 = (mSpecStep c true s (.append k v)).2.its ∧
    OpenRel p c (mStep p c true m s.its (.append k v)).2.1 (mSpecStep c true s (.append k v)).2
      (used + (MOp.append k v).bytes c) true false := by
  obtain ⟨h1, h2, h3⟩ := h.rel.step hp hc (.append k v) hfit
  refine ⟨h1, h2, h3.good.calm, ?_, h3.view⟩
  obtain ⟨C, hinv, hC⟩ := h.snug
  obtain ⟨es0, C0, hinv0, hC0⟩ := h.calm.ex
  simp only [mStep, mSpecStep, append, appendWith]
  rw [h.view.indexed]
  cases hidx : s.indexed with
  | false => exact h.snug
  | true =>
    simp only [if_true]
    cases hk : c.encK k with
    | none => simp only [Option.isSome_none, Bool.false_eq_true, false_and, if_false]; exact h.snug
    | some kb =>
      cases hv : c.encV v with
      | none => simp only [Option.isSome_none, Bool.false_eq_true, and_false, if_false]; exact h.snug
      | some vb =>
        have hne : vb ≠ [] := by rintro rfl; exact hc.some_ v hv
        simp only [MOp.bytes, hv, Option.getD_some] at hfit
        obtain ⟨db1, e, hg⟩ := good_append hp h.calm.good (batch := [vb]) (by simp) (by simpa using hne)
          (by simpa using hfit)
        have hlen : C.length ≤ used := by
          have e1 := hinv.dataOK.len_eq
          have e2 := hinv0.dataOK.len_eq
          omega
        have hs := h.snug.append hp (h.calm.room rfl) (batch := [vb]) (by simp) (by simpa using hne)
          (by simp only [List.flatten_cons, List.flatten_nil, List.append_nil]; omega) e
        simp only [e, Option.isSome_some, and_self, if_true, Bool.false_eq_true, if_false]
        have : records c (s.log ++ [(k, v)]) = records c s.log ++ [vb] := by simp [records, hv]
        rw [this]
        exact hs

theorem held [DecidableEq K] (s : MSpec K V) (op : MOp K V) (h : ∀ b, op ≠ .reopen b) :
    (mSpecStep c true s op).2.indexed = s.indexed := by
  cases op with
  | reopen b => exact absurd rfl (h b)
  | append k v =>
    simp only [mSpecStep]
    split
    · split <;> simp_all
    · rfl
  | iterFrom k =>
    simp only [mSpecStep, MSpec.start]
    split <;> rfl
  | next it =>
    simp only [mSpecStep]
    split <;> rfl
  | getNext k => cases k <;> rfl
  | _ => rfl

/-- A prudent history. -/
theorem run [DecidableEq K] (hp : 16 ∣ p.minMmap) (hm : p.minMmap < 2 ^ 62) (hc : c.Lawful) (ops : List (OpenOp K V))
    {m : ILM} {s : MSpec K V} {used : Nat} {wet cut : Bool} (h : OpenRel p c m s used wet cut)
    (hpr : Wary wet cut ops) (hh : Held s.indexed ops) (hfit : used + openBytes c ops < 2 ^ 59) :
    openRun p c m s.its ops = openSpecRun c s ops := by
  induction ops generalizing m s used wet cut with
  | nil => rfl
  | cons op ops ih =>
    cases op with
    | again readonly =>
      simp only [openBytes] at hfit
      simp only [openRun, openSpecRun]
      obtain ⟨hx, hh⟩ := hh
      cases readonly with
      | true =>
        rw [h.again_readonly hm (by omega) hx]
        simp only [Wary] at hpr
        rw [ih h hpr hh hfit]
      | false =>
        rw [h.again_writing hm (by omega) hx]
        simp only [Wary] at hpr
        rw [ih h.dropped hpr hh hfit]
    | call op =>
      simp only [openBytes] at hfit
      simp only [openRun, openSpecRun]
      by_cases ha : ∃ k v, op = .append k v
      · obtain ⟨k, v, rfl⟩ := ha
        simp only [Wary] at hpr
        obtain ⟨hcut, hpr⟩ := hpr
        subst hcut
        obtain ⟨h1, h2, h3⟩ := h.appended hp hc k v (by omega)
        rw [h1, h2, ih h3 hpr (by rw [held s _ (fun b => by simp)]; exact hh) (by omega)]
      · by_cases hr : ∃ b, op = .reopen b
        · obtain ⟨b, rfl⟩ := hr
          simp only [Wary] at hpr
          obtain ⟨h1, h2, h3⟩ := h.reopened hm (by omega) b
          rw [h1, h2, ih h3 hpr hh (by omega)]
        · have hop : op.Reads := by
            cases op with
            | append k v => exact absurd ⟨k, v, rfl⟩ ha
            | reopen b => exact absurd ⟨b, rfl⟩ hr
            | _ => trivial
          have hpr' : Wary wet cut ops := by
            cases op with
            | append k v => exact absurd ⟨k, v, rfl⟩ ha
            | reopen b => exact absurd ⟨b, rfl⟩ hr
            | _ => exact hpr
          have hh' : Held s.indexed ops := by
            cases op with
            | append k v => exact absurd ⟨k, v, rfl⟩ ha
            | reopen b => exact absurd ⟨b, rfl⟩ hr
            | _ => exact hh
          obtain ⟨h1, h2, h3⟩ := h.read hc op hop
          rw [h1, h2, ih h3 hpr' (by rw [held s _ (fun b hb => hr ⟨b, hb⟩)]; exact hh') (by omega)]

/-- Calls only. -/
theorem calls [DecidableEq K] (hp : 16 ∣ p.minMmap) (hm : p.minMmap < 2 ^ 62) (hc : c.Lawful) (ops : List (MOp K V))
    {m : ILM} {s : MSpec K V} {used : Nat} {wet : Bool} (h : OpenRel p c m s used wet false)
    (hfit : used + mBytes c ops < 2 ^ 59) :
    ∃ wet', OpenRel p c (mAfter p c true m s.its ops).1 (mSpecAfter c true s ops) (used + mBytes c ops) wet' false := by
  induction ops generalizing m s used wet with
  | nil => exact ⟨wet, by simpa [mBytes, mAfter, mSpecAfter] using h⟩
  | cons op ops ih =>
    rw [mBytes_cons] at hfit ⊢
    have hstep : ∃ w, (mStep p c true m s.its op).2.2 = (mSpecStep c true s op).2.its ∧
        OpenRel p c (mStep p c true m s.its op).2.1 (mSpecStep c true s op).2 (used + op.bytes c) w false := by
      cases op with
      | append k v =>
        obtain ⟨_, h2, h3⟩ := h.appended hp hc k v (by omega)
        exact ⟨_, h2, h3⟩
      | reopen b =>
        obtain ⟨_, h2, h3⟩ := h.reopened hm (by omega) b
        exact ⟨_, h2, h3.more (by omega)⟩
      | get k => obtain ⟨_, h2, h3⟩ := h.read hc (.get k) trivial; exact ⟨_, h2, h3.more (by omega)⟩
      | contains k => obtain ⟨_, h2, h3⟩ := h.read hc (.contains k) trivial; exact ⟨_, h2, h3.more (by omega)⟩
      | isEmpty => obtain ⟨_, h2, h3⟩ := h.read hc .isEmpty trivial; exact ⟨_, h2, h3.more (by omega)⟩
      | last => obtain ⟨_, h2, h3⟩ := h.read hc .last trivial; exact ⟨_, h2, h3.more (by omega)⟩
      | iter => obtain ⟨_, h2, h3⟩ := h.read hc .iter trivial; exact ⟨_, h2, h3.more (by omega)⟩
      | iterFrom k => obtain ⟨_, h2, h3⟩ := h.read hc (.iterFrom k) trivial; exact ⟨_, h2, h3.more (by omega)⟩
      | next i => obtain ⟨_, h2, h3⟩ := h.read hc (.next i) trivial; exact ⟨_, h2, h3.more (by omega)⟩
      | getNext k => obtain ⟨_, h2, h3⟩ := h.read hc (.getNext k) trivial; exact ⟨_, h2, h3.more (by omega)⟩
    obtain ⟨w, h2, h3⟩ := hstep
    obtain ⟨w', h6⟩ := ih h3 (by omega)
    rw [← Nat.add_assoc]
    simp only [mAfter, mSpecAfter, List.foldl_cons] at h6 ⊢
    rw [← h2] at h6
    exact ⟨w', h6⟩

end OpenRel

theorem fresh_openRel (p : Params) (c : Codec K V) (indexed : Bool) :
    ∃ m, fresh p true indexed = .ok m ∧ OpenRel p c m ⟨[], [], indexed, []⟩ 0 false false := by
  obtain ⟨db, e, hg⟩ := fresh_good p true
  have e0 : Fraos.fresh p true = .ok db := e
  unfold Fraos.fresh at e
  rw [if_pos rfl] at e
  have hact := openDB_active e
  have hcalm : Calm p db [] 0 false false :=
    ⟨hg.ex, fun _ => hg.room, hg.wd, hg.wi, hg.mode, hg.idxLen, fun _ => hact⟩
  obtain ⟨es, C, hinv, hC⟩ := hg.ex
  have hes : es = [] := List.eq_nil_of_length_eq_zero (by have := hinv.recs.length; simpa using this)
  subst hes
  refine ⟨⟨db, [], indexed⟩, by unfold fresh; rw [e0], ?_⟩
  refine ⟨by simpa [records] using hcalm, ⟨C, ?_, ?_⟩, ⟨⟨[], C, ?_⟩, by simp, by simp, by simp, by simp, rfl, by simp⟩⟩
  · simpa [records, entriesFrom] using hinv
  · simp [records]; exact List.eq_nil_of_length_eq_zero (by omega)
  · simpa [records] using hinv

end Verif.Ilm
