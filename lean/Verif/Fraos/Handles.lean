import Verif.Fraos.SpecLemmas

/-!
# Several handles, and failing system calls

A clone of a database shares both parts (`Arc`), so a history over several handles is a history of calls
on the shared state; only dropping a clone is visible (database.rs:164-169: every drop cuts both files).
-/

namespace Verif.Fraos

/-- Calls through any of the handles, and dropping a clone while another handle lives. -/
inductive HOp where
  | call (op : Op)
  | dropClone

/-- One step of the model, database.rs:164-169. -/
def hStep (p : Params) (db : DB) : HOp → Option Resp × DB
  | .call op => (some (step p db op).1, (step p db op).2)
  | .dropClone => (none, db.drop)

/-- Answers of the model. -/
def hRun (p : Params) : DB → List HOp → List (Option Resp)
  | _, [] => []
  | db, op :: ops => (hStep p db op).1 :: hRun p (hStep p db op).2 ops

/-- The specification: dropping a clone has no effect. -/
def hSpecRun (onDisk : Bool) : List (List UInt8) → List HOp → List (Option Resp)
  | _, [] => []
  | log, .call op :: ops => some (specStep onDisk log op).1 :: hSpecRun onDisk (specStep onDisk log op).2 ops
  | log, .dropClone :: ops => none :: hSpecRun onDisk log ops

/-- Bytes of a step. -/
def HOp.bytes : HOp → Nat
  | .call op => op.bytes
  | .dropClone => 0

/-- Sequence numbers below `2^60`. -/
def HOp.small : HOp → Prop
  | .call op => op.small
  | .dropClone => True

/-- No append comes between the drop of a clone that follows an append of the same session, and the next
reopen. `wet`: something was appended since the files were opened; `cut`: a clone was dropped after that. -/
def Careful : Bool → Bool → List HOp → Prop
  | _, _, [] => True
  | wet, cut, .dropClone :: ops => Careful wet (cut || wet) ops
  | _, _, .call .reopen :: ops => Careful false false ops
  | _, cut, .call (.append _) :: ops => cut = false ∧ Careful true cut ops
  | _, cut, .call (.putSeqno _) :: ops => cut = false ∧ Careful true cut ops
  | wet, cut, .call _ :: ops => Careful wet cut ops

/-! ### Lemmas -/

theorem Appender.new_active {f : Option Blob} {w : Bool} {ex : Option Nat} {a : Appender}
    (h : Appender.new f w ex = .ok a) : a.g.active = none := by
  unfold Appender.new at h
  split at h
  · cases h
  · rename_i g hg
    cases h
    unfold GM.new at hg
    split at hg
    · cases hg; rfl
    · simp only at hg
      split at hg
      · cases hg
      · split at hg <;> cases hg <;> rfl

theorem idxOpen_active {p : Params} {f : Option Blob} {w : Bool} {a : Appender}
    (h : idxOpen p f w = .ok a) : a.g.active = none := by
  unfold idxOpen at h
  split at h
  · cases h
  · rename_i a0 ha
    split at h
    · cases h
    · cases h; exact Appender.new_active ha
    · split at h
      · split at h
        · cases h
        · exact Appender.new_active h
      · cases h; exact Appender.new_active ha

theorem openDB_active {p : Params} {fd fi : Option Blob} {w : Bool} {db : DB}
    (h : DB.openDB p fd fi w = .ok db) : db.data.g.active = none ∧ db.idx.g.active = none := by
  unfold DB.openDB at h
  split at h
  · cases h
  · rename_i i hi
    split at h
    · cases h
    · split at h
      · cases h
      · split at h
        · cases h
        · split at h
          · cases h
          · rename_i d hd
            cases h
            exact ⟨Appender.new_active hd, idxOpen_active hi⟩

theorem GM.shrink_gmok {g : GM} {C : List UInt8} (h : GMOK g C) (hw : g.writable = true) :
    GMOK g.shrink C ∧ g.shrink.bounds = g.bounds ∧ g.shrink.active = g.active ∧
      g.shrink.writable = true ∧ g.shrink.file.isSome = g.file.isSome := by
  cases hf : g.file with
  | none =>
    have : g.shrink = g := by unfold GM.shrink; rw [hf]
    rw [this]
    exact ⟨h, rfl, rfl, hw, by rw [hf]⟩
  | some f =>
    rw [shrink_file h hf hw]
    refine ⟨⟨h.chain, ?_, ?_, h.anonLen, ?_⟩, rfl, rfl, hw, rfl⟩
    · have := h.maps; rw [hf] at this; exact this
    · have := h.active; rw [hf] at this; exact this
    · intro f' hf'
      cases hf'
      exact (h.file f hf).setLen (le_refl _)

/-- Dropping a clone leaves the records in place. -/
theorem DBInv.dropped {db : DB} {es : List (Nat × Nat)} {C : List UInt8} {log : List (List UInt8)}
    (h : DBInv db es C log) (hwd : db.data.g.writable = true) (hwi : db.idx.g.writable = true) :
    DBInv db.drop es C log := by
  obtain ⟨d1, d2, d3, d4, d5⟩ := GM.shrink_gmok h.dataOK hwd
  obtain ⟨i1, i2, i3, i4, i5⟩ := GM.shrink_gmok h.idxOK hwi
  refine ⟨i1, ?_, h.idxSize, d1, h.dataSize, ?_, h.fits, ?_, ?_⟩
  · show ∀ b ∈ db.idx.g.shrink.bounds, _
    rw [i2]; exact h.idxBounds
  · show Recs C db.data.g.shrink.bounds _ _
    rw [d2]; exact h.recs
  · intro f hf
    cases hf0 : db.idx.g.file with
    | none =>
      have h0 : db.drop.idx.g.file.isSome = false := by
        show db.idx.g.shrink.file.isSome = false
        rw [i5, hf0]; rfl
      rw [hf] at h0; cases h0
    | some f0 =>
      have h0 : db.drop.idx.g.file = some (f0.setLen (16 * es.length)) := by
        show db.idx.g.shrink.file = _
        rw [shrink_file h.idxOK hf0 hwi]; simp
      rw [hf] at h0
      cases h0
      exact ⟨(h.tail f0 hf0).1.setLen _, by simp⟩
  · show db.data.g.shrink.file.isSome = db.idx.g.shrink.file.isSome
    rw [d5, i5, h.mode]

/-- The state of a database on disk some of whose handles were dropped. -/
structure Calm (p : Params) (db : DB) (log : List (List UInt8)) (used : Nat) (wet cut : Bool) : Prop where
  ex : ∃ es C, DBInv db es C log ∧ C.length ≤ used
  room : cut = false → DBRoom db
  wd : db.data.g.writable = true
  wi : db.idx.g.writable = true
  mode : db.idx.g.file.isSome = true
  idxLen : ∀ f, db.idx.g.file = some f → f.len ≤ 16 * used + p.minMmap
  dry : wet = false → db.data.g.active = none ∧ db.idx.g.active = none

theorem Calm.good {p : Params} {db : DB} {log : List (List UInt8)} {used : Nat} {wet : Bool}
    (h : Calm p db log used wet false) : Good p true db log used :=
  ⟨h.ex, h.room rfl, h.wd, h.wi, h.mode, h.idxLen⟩

theorem Good.calm {p : Params} {db : DB} {log : List (List UInt8)} {used : Nat}
    (h : Good p true db log used) : Calm p db log used true false :=
  ⟨h.ex, fun _ => h.room, h.wd, h.wi, h.mode, h.idxLen, fun h => by cases h⟩

theorem Calm.dropped {p : Params} {db : DB} {log : List (List UInt8)} {used : Nat} {wet cut : Bool}
    (h : Calm p db log used wet cut) : Calm p db.drop log used wet (cut || wet) := by
  obtain ⟨es, C, hinv, hC⟩ := h.ex
  obtain ⟨d1, d2, d3, d4, d5⟩ := GM.shrink_gmok hinv.dataOK h.wd
  obtain ⟨i1, i2, i3, i4, i5⟩ := GM.shrink_gmok hinv.idxOK h.wi
  refine ⟨⟨es, C, hinv.dropped h.wd h.wi, hC⟩, ?_, d4, i4, ?_, ?_, ?_⟩
  · intro hc
    rw [Bool.or_eq_false_iff] at hc
    obtain ⟨e1, e2⟩ := h.dry hc.2
    refine ⟨?_, ?_⟩
    · intro a f ha
      have ha' : db.idx.g.shrink.active = some a := ha
      rw [i3, e2] at ha'; cases ha'
    · intro a f ha
      have ha' : db.data.g.shrink.active = some a := ha
      rw [d3, e1] at ha'; cases ha'
  · show db.idx.g.shrink.file.isSome = true
    rw [i5]; exact h.mode
  · intro f hf
    obtain ⟨f0, hf0⟩ := Option.isSome_iff_exists.mp h.mode
    have hf' : db.idx.g.shrink.file = some f := hf
    rw [shrink_file hinv.idxOK hf0 h.wi] at hf'
    cases hf'
    have := hinv.recs.count_le
    simp only [Blob.setLen_len, entriesBytes_length]; omega
  · intro hw
    show db.data.g.shrink.active = none ∧ db.idx.g.shrink.active = none
    rw [d3, i3]; exact h.dry hw

theorem Calm.more {p : Params} {db : DB} {log : List (List UInt8)} {m n : Nat} {wet cut : Bool}
    (h : Calm p db log m wet cut) (hmn : m ≤ n) : Calm p db log n wet cut := by
  obtain ⟨es, C, h1, h2⟩ := h.ex
  exact ⟨⟨es, C, h1, le_trans h2 hmn⟩, h.room, h.wd, h.wi, h.mode, fun f hf => by
    have := h.idxLen f hf; omega, h.dry⟩

/-- A read through any handle, whatever was dropped. -/
theorem Calm.read {p : Params} {db : DB} {log : List (List UInt8)} {used : Nat} {wet cut : Bool}
    (h : Calm p db log used wet cut) {op : Op} (hs : op.small) (h1 : ∀ b, op ≠ .append b)
    (h2 : ∀ r, op ≠ .putSeqno r) (h3 : op ≠ .reopen) :
    step p db op = ((specStep true log op).1, db) ∧ (specStep true log op).2 = log := by
  obtain ⟨es, C, hinv, hC⟩ := h.ex
  cases op with
  | append b => exact absurd rfl (h1 b)
  | putSeqno r => exact absurd rfl (h2 r)
  | reopen => exact absurd rfl h3
  | get i =>
    simp only [step, specStep, Op.small] at hs ⊢
    rw [hinv.get_ok hs]; exact ⟨rfl, trivial⟩
  | len => simp only [step, specStep]; rw [hinv.len_eq]; exact ⟨rfl, trivial⟩
  | isEmpty =>
    simp only [step, specStep, DB.isEmpty]
    rw [hinv.len_eq]
    refine ⟨?_, trivial⟩
    cases log <;> simp
  | last => simp only [step, specStep]; rw [hinv.last_ok]; exact ⟨rfl, trivial⟩

theorem hRun_calm {p : Params} (hp : 16 ∣ p.minMmap) (ops : List HOp) {db : DB}
    {log : List (List UInt8)} {used : Nat} {wet cut : Bool} (h : Calm p db log used wet cut)
    (hcare : Careful wet cut ops) (hs : ∀ op ∈ ops, op.small)
    (hfit : used + (ops.map HOp.bytes).sum < 2 ^ 60) : hRun p db ops = hSpecRun true log ops := by
  induction ops generalizing db log used wet cut with
  | nil => rfl
  | cons op ops ih =>
    simp only [List.map_cons, List.sum_cons] at hfit
    have hrest : ∀ o ∈ ops, o.small := fun o ho => hs o (by simp [ho])
    cases op with
    | dropClone =>
      simp only [hRun, hStep, hSpecRun, Careful, HOp.bytes] at hcare hfit ⊢
      rw [ih h.dropped hcare hrest (by omega)]
    | call op =>
      have hso : op.small := hs (.call op) (by simp)
      simp only [HOp.bytes] at hfit
      simp only [hRun, hStep, hSpecRun]
      by_cases hr : op = .reopen
      · subst hr
        simp only [Careful] at hcare
        obtain ⟨db1, e, hg⟩ := Closable.reopen (p := p) ⟨h.ex, h.wd, h.wi, h.mode⟩
        have hact := openDB_active (by unfold DB.reopen at e; exact e)
        have hcalm : Calm p db1 log used false false :=
          ⟨hg.ex, fun _ => hg.room, hg.wd, hg.wi, hg.mode, hg.idxLen, fun _ => hact⟩
        simp only [step, specStep, e, if_true]
        rw [ih hcalm hcare hrest (by omega)]
      · by_cases ha : (∃ b, op = .append b) ∨ (∃ r, op = .putSeqno r)
        · have hc : cut = false ∧ Careful true cut ops := by
            rcases ha with ⟨b, rfl⟩ | ⟨r, rfl⟩ <;> exact hcare
          obtain ⟨hc1, hc2⟩ := hc
          subst hc1
          obtain ⟨e1, hg⟩ := step_good hp h.good hso (by omega)
          rw [e1, ih hg.calm hc2 hrest (by omega)]
        · have h1 : ∀ b, op ≠ .append b := fun b hb => ha (.inl ⟨b, hb⟩)
          have h2 : ∀ r, op ≠ .putSeqno r := fun r hb => ha (.inr ⟨r, hb⟩)
          obtain ⟨e1, e2⟩ := h.read hso h1 h2 hr
          have hc : Careful wet cut ops := by
            cases op with
            | append b => exact absurd rfl (h1 b)
            | putSeqno r => exact absurd rfl (h2 r)
            | reopen => exact absurd rfl hr
            | _ => exact hcare
          rw [e1, e2, ih h hc hrest (by omega)]

/-- In memory dropping a clone does nothing. -/
theorem drop_memory {db : DB} (h1 : db.data.g.file = none) (h2 : db.idx.g.file = none) : db.drop = db := by
  unfold DB.drop GM.shrink
  rw [h1, h2]

theorem hRun_memory {p : Params} (hp : 16 ∣ p.minMmap) (ops : List HOp) {db : DB}
    {log : List (List UInt8)} {used : Nat} (h : Good p false db log used)
    (hs : ∀ op ∈ ops, op.small) (hfit : used + (ops.map HOp.bytes).sum < 2 ^ 60) :
    hRun p db ops = hSpecRun false log ops := by
  induction ops generalizing db log used with
  | nil => rfl
  | cons op ops ih =>
    simp only [List.map_cons, List.sum_cons] at hfit
    have hrest : ∀ o ∈ ops, o.small := fun o ho => hs o (by simp [ho])
    cases op with
    | dropClone =>
      obtain ⟨es, C, hinv, _⟩ := h.ex
      have hi : db.idx.g.file = none := by have := h.mode; simpa using this
      have hd : db.data.g.file = none := by have := hinv.mode; rw [hi] at this; simpa using this
      simp only [hRun, hStep, hSpecRun, HOp.bytes] at hfit ⊢
      rw [drop_memory hd hi, ih h hrest (by omega)]
    | call op =>
      simp only [HOp.bytes] at hfit
      obtain ⟨e1, hg⟩ := step_good hp h (hs (.call op) (by simp)) (by omega)
      simp only [hRun, hStep, hSpecRun]
      rw [e1, ih hg hrest (by omega)]

/-! ### Failing system calls -/

/-- A call, or an append during which the operating system fails as given. -/
inductive FOp where
  | call (op : Op)
  | failing (fd fi : Faults) (batch : List (List UInt8))

/-- One step of the model. -/
def fStep (p : Params) (db : DB) : FOp → Resp × DB
  | .call op => step p db op
  | .failing fd fi batch =>
    let (r, db1) := db.append p fd fi batch
    (.seqno r, db1)

/-- The history with the answers of the model. -/
def fTrace (p : Params) : DB → List FOp → List (FOp × Resp)
  | _, [] => []
  | db, op :: ops => (op, (fStep p db op).1) :: fTrace p (fStep p db op).2 ops

/-- What a user expects of answers given under failures: a batch whose append is reported as failed is
not there, one reported as stored is, and all other answers are those of the list of records. -/
def Consistent (onDisk : Bool) : List (List UInt8) → List (FOp × Resp) → Prop
  | _, [] => True
  | log, (.call op, r) :: t => r = (specStep onDisk log op).1 ∧ Consistent onDisk (specStep onDisk log op).2 t
  | log, (.failing _ _ batch, r) :: t =>
    (r = (specStep onDisk log (.append batch)).1 ∧
      Consistent onDisk (specStep onDisk log (.append batch)).2 t) ∨
    (∃ e, r = .seqno (.error e) ∧ Consistent onDisk log t)

/-- Bytes of a step. -/
def FOp.bytes : FOp → Nat
  | .call op => op.bytes
  | .failing _ _ batch => (batch.map List.length).sum

/-- Sequence numbers below `2^60`; only the extension of a file and the creation of a mapping fail. -/
def FOp.early : FOp → Prop
  | .call op => op.small
  | .failing fd fi _ => fd.Early ∧ fi.Early

theorem good_failing {p : Params} (hp : 16 ∣ p.minMmap) {onDisk : Bool} {db : DB}
    {log : List (List UInt8)} {used : Nat} (h : Good p onDisk db log used) {fd fi : Faults}
    (hfd : fd.Early) (hfi : fi.Early) {batch : List (List UInt8)} (hb : batch ≠ [])
    (hne : ∀ r ∈ batch, r ≠ []) (hfit : used + (batch.map List.length).sum < 2 ^ 60) :
    (∃ db1, db.append p fd fi batch = (.ok (some log.length), db1) ∧
      Good p onDisk db1 (log ++ batch) (used + (batch.map List.length).sum)) ∨
    (∃ e db1, db.append p fd fi batch = (.error e, db1) ∧
      Good p onDisk db1 log (used + (batch.map List.length).sum)) := by
  obtain ⟨es, C, hinv, hC⟩ := h.ex
  rw [← List.length_flatten] at hfit ⊢
  have h4 : db.idx.g.newSize p (16 * batch.length) ≤ 16 * batch.length + p.minMmap := by
    unfold GM.newSize
    cases db.idx.g.file <;> simp
  have hbl : batch.length ≤ batch.flatten.length := by
    have := (entriesFrom_recs C batch hne (bs := []) (by simp)).count_le
    have h5 : ∀ (l : List (List UInt8)), (∀ r ∈ l, r ≠ []) → l.length ≤ l.flatten.length := by
      intro l hl
      induction l with
      | nil => simp
      | cons r l ih =>
        have h6 := List.length_pos_of_ne_nil (hl r (by simp))
        have h7 := ih (fun r hr => hl r (by simp [hr]))
        simp only [List.flatten_cons, List.length_append, List.length_cons]; omega
    exact h5 batch hne
  have hcnt := hinv.recs.count_le
  rcases append_spec (p := p) hp hinv h.room hfd hfi hb hne (by omega) with
    ⟨db1, e, hinv1, hr1, hwd, hwi, hm, hl⟩ | ⟨er, db1, D, e, hinv1, hr1, hD, hwd, hwi, hm, hl, he⟩
  · refine .inl ⟨db1, e, ⟨_, _, hinv1, ?_⟩, hr1, by rw [hwd, h.wd], by rw [hwi, h.wi], by rw [hm, h.mode], ?_⟩
    · rw [List.length_append]; omega
    · intro f hf
      rcases hl f hf with h1 | ⟨b, h1, h2⟩
      · omega
      · have := h.idxLen b h1
        omega
  · refine .inr ⟨er, db1, e, ⟨_, _, hinv1, ?_⟩, hr1, by rw [hwd, h.wd], by rw [hwi, h.wi], by rw [hm, h.mode], ?_⟩
    · rw [List.length_append]; omega
    · intro f hf
      rcases hl f hf with h1 | ⟨b, h1, h2⟩
      · omega
      · have := h.idxLen b h1
        omega

theorem fTrace_consistent {p : Params} (hp : 16 ∣ p.minMmap) {onDisk : Bool} (ops : List FOp) {db : DB}
    {log : List (List UInt8)} {used : Nat} (h : Good p onDisk db log used)
    (hs : ∀ op ∈ ops, op.early) (hfit : used + (ops.map FOp.bytes).sum < 2 ^ 60) :
    Consistent onDisk log (fTrace p db ops) := by
  induction ops generalizing db log used with
  | nil => trivial
  | cons op ops ih =>
    simp only [List.map_cons, List.sum_cons] at hfit
    have hrest : ∀ o ∈ ops, o.early := fun o ho => hs o (by simp [ho])
    cases op with
    | call op =>
      simp only [FOp.bytes] at hfit
      obtain ⟨e1, hg⟩ := step_good hp h (hs (.call op) (by simp)) (by omega)
      simp only [fTrace, fStep, Consistent]
      exact ⟨e1, ih hg hrest (by omega)⟩
    | failing fd fi batch =>
      simp only [FOp.bytes] at hfit
      obtain ⟨hfd, hfi⟩ : fd.Early ∧ fi.Early := hs (.failing fd fi batch) (by simp)
      simp only [fTrace, fStep, Consistent]
      by_cases hb : batch = []
      · subst hb
        left
        simp only [append_empty, specStep, if_true]
        exact ⟨trivial, ih h hrest (by omega)⟩
      · by_cases he : [] ∈ batch
        · left
          rw [append_rejects db _ _ he]
          simp only [specStep]
          rw [if_neg hb, if_pos he]
          exact ⟨rfl, ih h hrest (by omega)⟩
        · rcases good_failing hp h hfd hfi hb (fun r hr hc => he (hc ▸ hr)) (by omega) with
            ⟨db1, e, hg⟩ | ⟨er, db1, e, hg⟩
          · left
            simp only [e, specStep]
            rw [if_neg hb, if_neg he]
            exact ⟨rfl, ih hg hrest (by omega)⟩
          · right
            simp only [e]
            exact ⟨er, rfl, ih hg hrest (by omega)⟩

end Verif.Fraos
