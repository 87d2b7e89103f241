import Verif.Ilm.Lemmas

/-!
# Appends that are refused

The system may refuse to extend or to map the files of the log, and a directory may be opened read-only.
-/

namespace Verif.Fraos

/-- An append where files may fail to be extended or mapped. -/
theorem good_append_faults {p : Params} (hp : 16 ∣ p.minMmap) {onDisk : Bool} {db : DB}
    {log : List (List UInt8)} {used : Nat} (h : Good p onDisk db log used) {fd fi : Faults} (hfd : fd.Early)
    (hfi : fi.Early) {batch : List (List UInt8)}
    (hb : batch ≠ []) (hne : ∀ r ∈ batch, r ≠ []) (hfit : used + (batch.map List.length).sum < 2 ^ 60) :
    (∃ db1, db.append p fd fi batch = (.ok (some log.length), db1) ∧
      Good p onDisk db1 (log ++ batch) (used + (batch.map List.length).sum)) ∨
    (∃ e db1, db.append p fd fi batch = (.error e, db1) ∧
      Good p onDisk db1 log (used + (batch.map List.length).sum) ∧
      (e = .extend ∧ (fd.setLen = true ∨ fi.setLen = true) ∨ e = .mmap ∧ (fd.map = true ∨ fi.map = true))) := by
  obtain ⟨es, C, hinv, hC⟩ := h.ex
  rw [← List.length_flatten] at hfit ⊢
  have h4 : db.idx.g.newSize p (16 * batch.length) ≤ 16 * batch.length + p.minMmap := by
    unfold GM.newSize
    cases db.idx.g.file <;> simp
  have hbl : batch.length ≤ batch.flatten.length := by
    clear hfit hb
    induction batch with
    | nil => simp
    | cons r rs ih =>
      have := List.length_pos_of_ne_nil (hne r (by simp))
      have := ih (fun x hx => hne x (by simp [hx])) (by
        unfold GM.newSize
        cases db.idx.g.file <;> simp)
      simp only [List.length_cons, List.flatten_cons, List.length_append]; omega
  have h3 := hinv.recs.count_le
  rcases append_spec (p := p) hp hinv h.room hfd hfi hb hne (by omega) with
    ⟨db1, e, hinv1, hr1, hwd, hwi, hm, hl⟩ | ⟨er, db1, D, e, hinv1, hr1, hD, hwd, hwi, hm, hl, he⟩
  · refine .inl ⟨db1, e, ⟨_, _, hinv1, ?_⟩, hr1, by rw [hwd, h.wd], by rw [hwi, h.wi], by rw [hm, h.mode], ?_⟩
    · rw [List.length_append]; omega
    · intro f hf
      rcases hl f hf with h1 | ⟨b, h1, h2⟩
      · omega
      · have := h.idxLen b h1
        omega
  · refine .inr ⟨er, db1, e, ⟨⟨_, _, hinv1, ?_⟩, hr1, by rw [hwd, h.wd], by rw [hwi, h.wi], by rw [hm, h.mode], ?_⟩, ?_⟩
    · rw [List.length_append]; omega
    · intro f hf
      rcases hl f hf with h1 | ⟨b, h1, h2⟩
      · omega
      · have := h.idxLen b h1
        omega
    · have h1 := h.wd
      have h2 := h.wi
      rcases he with ⟨h5, h6 | h6 | h6 | h6⟩ | ⟨h5, h6⟩
      · exact .inl ⟨h5, .inl h6⟩
      · exact .inl ⟨h5, .inr h6⟩
      · rw [h1] at h6; cases h6
      · rw [h2] at h6; cases h6
      · exact .inr ⟨h5, h6⟩

/-- A database opened read-only on the files of a closed one. -/
structure Readonly (p : Params) (db : DB) (log : List (List UInt8)) (used : Nat) : Prop where
  ex : ∃ es C, DBInv db es C log
  files : ∃ fd fi, db.data.g.file = some fd ∧ db.idx.g.file = some fi ∧ DiskOK fd fi log used ∧
    fi.len ≤ 16 * used + p.minMmap
  wd : db.data.g.writable = false
  wi : db.idx.g.writable = false
  active : db.data.g.active = none

theorem openDB_active_none {p : Params} {fd fi : Option Blob} {w : Bool} {db : DB} (e : DB.openDB p fd fi w = .ok db) :
    db.data.g.active = none := by
  unfold DB.openDB at e
  split at e
  · cases e
  · split at e
    · cases e
    · split at e
      · cases e
      · split at e
        · cases e
        · split at e
          · cases e
          · rename_i d hd
            cases e
            revert hd
            unfold Appender.new GM.new
            intro hd
            simp only at hd
            split at hd
            · cases hd
            · rename_i g hgnew
              cases hd
              split at hgnew
              · cases hgnew; rfl
              · split at hgnew
                · cases hgnew
                · split at hgnew <;> cases hgnew <;> rfl

/-- Closing a database and opening it read-only. -/
theorem Good.readonly {p : Params} {db : DB} {log : List (List UInt8)} {used : Nat} (h : Good p true db log used) :
    ∃ ro, db.reopen p false = .ok ro ∧ Readonly p ro log used := by
  obtain ⟨es, C, hinv, hC⟩ := h.ex
  have hm := h.mode
  have hm' := hinv.mode
  rw [hm] at hm'
  obtain ⟨fi, hfi⟩ := Option.isSome_iff_exists.mp hm
  obtain ⟨fd, hfd⟩ := Option.isSome_iff_exists.mp hm'
  obtain ⟨e1, e2, hdisk⟩ := hinv.disk_closed hfd hfi h.wd h.wi
  obtain ⟨ro, es1, C1, e3, hinv1, hr1, hle, hwd, hwi, hfd1, hfi1⟩ := open_spec (p := p) hdisk false
  have h3 := hinv.recs.count_le
  refine ⟨ro, by unfold DB.reopen; rw [e1, e2]; exact e3, ⟨es1, C1, hinv1⟩, ⟨_, _, hfd1, hfi1, ?_, ?_⟩, hwd, hwi,
    openDB_active_none e3⟩
  · obtain ⟨x1, x2, x3, x4, x5, x6, x7, x8, x9⟩ := hdisk.ex
    exact ⟨⟨x1, x2, x3, x4, x5, x6, x7, x8, by omega⟩, hdisk.idxFits⟩
  · simp only [Blob.setLen_len]; omega

/-- Every append is refused and changes nothing at all. -/
theorem Readonly.append {p : Params} {db : DB} {log : List (List UInt8)} {used : Nat} (h : Readonly p db log used)
    {batch : List (List UInt8)} (hb : batch ≠ []) (hne : ∀ r ∈ batch, r ≠ []) (fd fi : Faults) :
    db.append p fd fi batch = (.error .extend, db) := by
  obtain ⟨f, _, hf, _⟩ := h.files
  have hpos : (batch.map List.length).sum ≠ 0 := by
    cases batch with
    | nil => exact absurd rfl hb
    | cons r rs =>
      have := List.length_pos_of_ne_nil (hne r (by simp))
      simp only [List.map_cons, List.sum_cons]; omega
  have hbe : batch.isEmpty = false := by cases batch with
    | nil => exact absurd rfl hb
    | cons => rfl
  unfold DB.append flatAppend Appender.append GM.grow GM.makeRoom
  simp only [hbe, any_isEmpty_false hne, h.active, GM.createMmap, hf, h.wd]
  simp [hpos]

/-- Closing it and opening the directory again, for writing. -/
theorem Readonly.reopen {p : Params} {db : DB} {log : List (List UInt8)} {used : Nat} (h : Readonly p db log used) :
    ∃ db1, db.reopen p true = .ok db1 ∧ Good p true db1 log used := by
  obtain ⟨fd, fi, hfd, hfi, hdisk, hlen⟩ := h.files
  have e1 : db.drop.data.g.file = some fd := by simp [DB.drop, GM.shrink, hfd, h.wd]
  have e2 : db.drop.idx.g.file = some fi := by simp [DB.drop, GM.shrink, hfi, h.wi]
  obtain ⟨db1, es1, C1, e3, hinv1, hr1, hle, hwd, hwi, hfd1, hfi1⟩ := open_spec (p := p) hdisk true
  refine ⟨db1, by unfold DB.reopen; rw [e1, e2]; exact e3, ⟨es1, C1, hinv1, hle⟩, hr1, hwd, hwi, by simp [hfi1], ?_⟩
  intro f hf
  rw [hfi1] at hf
  cases hf
  exact hlen

end Verif.Fraos

namespace Verif.Ilm

open Verif.Fraos

variable {K V : Type}

/-! ### Histories on a system that may refuse appends -/

/-- A call, and what the system refuses to an append: for the data file and for the index file. -/
structure Call (K V : Type) where
  op : MOp K V
  fd : Faults := Faults.none
  fi : Faults := Faults.none

/-- One call on the model of the code. -/
def fStep (p : Params) (c : Codec K V) (onDisk : Bool) (m : ILM) (its : List Nat) (call : Call K V) :
    MResp V × ILM × List Nat :=
  match call.op with
  | .append k v =>
    (.done (appendWith p c m call.fd call.fi false k v).1, (appendWith p c m call.fd call.fi false k v).2, its)
  | op => mStep p c onDisk m its op

/-- Answers of the model. -/
def fRun (p : Params) (c : Codec K V) (onDisk : Bool) : ILM → List Nat → List (Call K V) → List (MResp V)
  | _, _, [] => []
  | m, its, call :: calls =>
    (fStep p c onDisk m its call).1 ::
      fRun p c onDisk (fStep p c onDisk m its call).2.1 (fStep p c onDisk m its call).2.2 calls

/-- The specification, told which calls are refused: these answer the error and have no effect. -/
def fSpecRun [DecidableEq K] (c : Codec K V) (onDisk : Bool) : MSpec K V → List (MOp K V × Option MErr) →
    List (MResp V)
  | _, [] => []
  | s, (_, some e) :: ops => .done (.error e) :: fSpecRun c onDisk s ops
  | s, (op, none) :: ops =>
    (mSpecStep c onDisk s op).1 :: fSpecRun c onDisk (mSpecStep c onDisk s op).2 ops

/-- What may happen to a call: it is refused only if it is an append, the system refused to extend or map a file, and
the error says so. -/
def Outcome (call : Call K V) (o : MOp K V × Option MErr) : Prop :=
  o.1 = call.op ∧ ∀ e, o.2 = some e → (∃ k v, call.op = .append k v) ∧
    (e = .storage .extend ∧ (call.fd.setLen = true ∨ call.fi.setLen = true) ∨
      e = .storage .mmap ∧ (call.fd.map = true ∨ call.fi.map = true))

/-- Bytes of a history. -/
def fBytes (c : Codec K V) (calls : List (Call K V)) : Nat := (calls.map (fun x => x.op.bytes c)).sum

theorem fRun_spec [DecidableEq K] {p : Params} {c : Codec K V} {onDisk : Bool} (hp : 16 ∣ p.minMmap)
    (hc : c.Lawful) (calls : List (Call K V)) (hf : ∀ x ∈ calls, x.fd.Early ∧ x.fi.Early) {m : ILM} {s : MSpec K V}
    {used : Nat} (h : MRel p c onDisk m s used) (hfit : used + fBytes c calls < 2 ^ 60) :
    ∃ out, List.Forall₂ Outcome calls out ∧ fRun p c onDisk m s.its calls = fSpecRun c onDisk s out := by
  induction calls generalizing m s used with
  | nil => exact ⟨[], .nil, rfl⟩
  | cons call calls ih =>
    obtain ⟨op, fd, fi⟩ := call
    obtain ⟨hfd, hfi⟩ := hf ⟨op, fd, fi⟩ (by simp)
    simp only at hfd hfi
    have hfit' : used + op.bytes c + fBytes c calls < 2 ^ 60 := by
      simp only [fBytes, List.map_cons, List.sum_cons] at hfit ⊢; omega
    have ih' := fun {m s} (h : MRel p c onDisk m s (used + op.bytes c)) =>
      ih (fun x hx => hf x (by simp [hx])) (m := m) (s := s) h hfit'
    have hplain : ∀ (m1 : ILM), fStep p c onDisk m s.its ⟨op, fd, fi⟩ =
        ((mSpecStep c onDisk s op).1, m1, (mSpecStep c onDisk s op).2.its) →
        MRel p c onDisk m1 (mSpecStep c onDisk s op).2 (used + op.bytes c) →
        ∃ out, List.Forall₂ Outcome (⟨op, fd, fi⟩ :: calls) out ∧
          fRun p c onDisk m s.its (⟨op, fd, fi⟩ :: calls) = fSpecRun c onDisk s out := by
      intro m1 h1 h2
      obtain ⟨out, h3, h4⟩ := ih' h2
      refine ⟨(op, none) :: out, .cons ⟨rfl, by simp⟩ h3, ?_⟩
      simp only [fRun, fSpecRun, h1, h4]
    have hread : op.Reads ∨ (∃ i, op = .reopen i) → ∃ out, List.Forall₂ Outcome (⟨op, fd, fi⟩ :: calls) out ∧
          fRun p c onDisk m s.its (⟨op, fd, fi⟩ :: calls) = fSpecRun c onDisk s out := by
      intro hop
      obtain ⟨h1, h2, h3⟩ := h.step hp hc op (by omega)
      refine hplain (mStep p c onDisk m s.its op).2.1 ?_ h3
      rw [← h1, ← h2]
      cases op with
      | append k v =>
        rcases hop with h | ⟨_, h⟩
        · exact h.elim
        · cases h
      | _ => rfl
    cases op with
    | append k v =>
      have hmore : MRel p c onDisk m s (used + MOp.bytes c (.append k v)) :=
        ⟨h.good.more (by omega), h.encV, h.jr, h.encK, h.ok, h.indexed, h.its⟩
      by_cases hidx : s.indexed = true
      swap
      · refine hplain m ?_ ?_
        · simp [fStep, appendWith, h.indexed, mSpecStep, hidx]
        · simpa [mSpecStep, hidx] using hmore
      by_cases henc : (c.encK k).isSome ∧ (c.encV v).isSome
      swap
      · refine hplain m ?_ ?_
        · simp only [fStep, appendWith, h.indexed, mSpecStep, hidx, if_true, if_neg henc]
          cases hk : c.encK k with
          | none => rfl
          | some kb =>
            cases hv : c.encV v with
            | none => rfl
            | some vb => exact absurd (by simp [hk, hv]) henc
        · simpa [mSpecStep, hidx, henc] using hmore
      obtain ⟨kb, hk⟩ := Option.isSome_iff_exists.mp henc.1
      obtain ⟨vb, hv⟩ := Option.isSome_iff_exists.mp henc.2
      have hne : vb ≠ [] := by rintro rfl; exact hc.some_ v hv
      have hb : MOp.bytes c (.append k v) = vb.length := by simp [MOp.bytes, hv]
      rcases good_append_faults hp h.good hfd hfi (batch := [vb]) (by simp) (by simpa using hne)
        (by simp; omega) with ⟨db1, e, hg⟩ | ⟨er, db1, e, hg, hwhy⟩
      · obtain ⟨_, h2, h3⟩ := h.step hp hc (.append k v) (by omega)
        have hstep : fStep p c onDisk m s.its ⟨.append k v, fd, fi⟩ =
            (.done (.ok ()), ⟨db1, (kb, posEnc s.log.length) :: m.journal, m.indexed⟩, s.its) := by
          simp [fStep, appendWith, h.indexed, hidx, hk, hv, e, records]
        refine hplain ⟨db1, (kb, posEnc s.log.length) :: m.journal, m.indexed⟩ ?_ ?_
        · rw [hstep]
          simp [mSpecStep, hidx, hk, hv]
        · have : (mSpecStep c onDisk s (.append k v)).2 =
              { s with log := s.log ++ [(k, v)], journal := (k, s.log.length) :: s.journal } := by
            simp [mSpecStep, hidx, hk, hv]
          rw [this] at h3 ⊢
          refine ⟨?_, h3.encV, ?_, h3.encK, h3.ok, h.indexed, h3.its⟩
          · have : records c (s.log ++ [(k, v)]) = records c s.log ++ [vb] := by simp [records, hv]
            simp only
            rw [this, hb]
            simpa using hg
          · simp [hk, h.jr]
      · have hstep : fStep p c onDisk m s.its ⟨.append k v, fd, fi⟩ =
            (.done (.error (.storage er)), ⟨db1, m.journal, m.indexed⟩, s.its) := by
          simp [fStep, appendWith, h.indexed, hidx, hk, hv, e]
        have hrel : MRel p c onDisk ⟨db1, m.journal, m.indexed⟩ s (used + MOp.bytes c (.append k v)) :=
          ⟨by rw [hb]; simpa using hg, h.encV, h.jr, h.encK, h.ok, h.indexed, h.its⟩
        obtain ⟨out, h3, h4⟩ := ih' hrel
        refine ⟨(.append k v, some (.storage er)) :: out, .cons ⟨rfl, ?_⟩ h3, ?_⟩
        · intro e' he'
          simp only [Option.some.injEq] at he'
          subst he'
          refine ⟨⟨k, v, rfl⟩, ?_⟩
          rcases hwhy with ⟨rfl, h⟩ | ⟨rfl, h⟩
          · exact .inl ⟨rfl, h⟩
          · exact .inr ⟨rfl, h⟩
        · simp only [fRun, fSpecRun, hstep, h4]
    | reopen i => exact hread (.inr ⟨i, rfl⟩)
    | _ => exact hread (.inl trivial)

/-! ### Maps opened read-only -/

/-- The specification of a map opened read-only: appends are refused. -/
def roSpecStep [DecidableEq K] (c : Codec K V) (s : MSpec K V) : MOp K V → MResp V × MSpec K V
  | .append k v =>
    (.done (.error (if s.indexed then
      (if (c.encK k).isSome ∧ (c.encV v).isSome then .storage .extend else .encode) else .noIndex)), s)
  | op => mSpecStep c true s op

/-- Answers of the specification. -/
def roSpecRun [DecidableEq K] (c : Codec K V) : MSpec K V → List (MOp K V) → List (MResp V)
  | _, [] => []
  | s, op :: ops => (roSpecStep c s op).1 :: roSpecRun c (roSpecStep c s op).2 ops

/-- A call that is not a reopening. -/
def MOp.Stays : MOp K V → Prop
  | .reopen _ => False
  | _ => True

theorem MView.readonly [DecidableEq K] {p : Params} {c : Codec K V} (hc : c.Lawful) (ops : List (MOp K V))
    (hops : ∀ op ∈ ops, op.Stays) {m : ILM} {s : MSpec K V} {used : Nat} (h : MView c m s)
    (hro : Readonly p m.db (records c s.log) used) :
    mRun p c true m s.its ops = roSpecRun c s ops ∧ (mAfter p c true m s.its ops).1 = m := by
  induction ops generalizing s with
  | nil => exact ⟨rfl, rfl⟩
  | cons op ops ih =>
    have key : (mStep p c true m s.its op).1 = (roSpecStep c s op).1 ∧ (mStep p c true m s.its op).2.1 = m ∧
        (mStep p c true m s.its op).2.2 = (roSpecStep c s op).2.its ∧ (roSpecStep c s op).2.log = s.log ∧
        MView c m (roSpecStep c s op).2 := by
      have hop := hops op (by simp)
      cases op with
      | append k v =>
        simp only [mStep, roSpecStep, append, appendWith, h.indexed]
        cases hidx : s.indexed with
        | false => exact ⟨rfl, rfl, trivial, trivial, h⟩
        | true =>
          simp only [if_true]
          cases hk : c.encK k with
          | none => exact ⟨by simp, rfl, trivial, trivial, h⟩
          | some kb =>
            cases hv : c.encV v with
            | none => exact ⟨by simp, rfl, trivial, trivial, h⟩
            | some vb =>
              have hne : vb ≠ [] := by rintro rfl; exact hc.some_ v hv
              simp only [Option.isSome_some, and_self, if_true]
              rw [hro.append (batch := [vb]) (by simp) (by simpa using hne)]
              refine ⟨by simp, ?_, trivial, trivial, h⟩
              obtain ⟨db, j, i⟩ := m
              have := h.indexed
              simp only [hidx] at this
              simp [this]
      | reopen i => exact hop.elim
      | _ => exact h.step hc true _ trivial
    obtain ⟨h1, h2, h3, h4, h5⟩ := key
    obtain ⟨h6, h7⟩ := ih (fun o ho => hops o (by simp [ho])) h5 (by rw [h4]; exact hro)
    refine ⟨?_, ?_⟩
    · simp only [mRun, roSpecRun, h1, h2, h3, h6]
    · simp only [mAfter, List.foldl_cons] at h7 ⊢
      rw [← h3] at h7
      have : (mStep p c true m s.its op).2 = (m, (mStep p c true m s.its op).2.2) :=
        Prod.ext h2 rfl
      rw [this]
      exact h7

/-- Opening read-only. -/
theorem MRel.readonly {p : Params} {c : Codec K V} {m : ILM} {s : MSpec K V} {used : Nat}
    (h : MRel p c true m s used) (indexed : Bool) :
    ∃ ro, reopenReadonly p m indexed = .ok ro ∧ MView c ro ⟨s.log, s.journal, indexed, []⟩ ∧
      Readonly p ro.db (records c s.log) used ∧
      ∀ indexed', ∃ m', reopen p ro true indexed' = .ok m' ∧
        MRel p c true m' ⟨s.log, s.journal, indexed', []⟩ used := by
  obtain ⟨db, e, hro⟩ := h.good.readonly
  refine ⟨⟨db, m.journal, indexed⟩, by unfold reopenReadonly; rw [e], ⟨hro.ex, h.encV, h.jr, h.encK, h.ok, rfl, by simp⟩,
    hro, fun indexed' => ?_⟩
  obtain ⟨db1, e1, hg⟩ := hro.reopen
  exact ⟨⟨db1, m.journal, indexed'⟩, by unfold reopen; simp only [e1, if_true],
    ⟨hg, h.encV, h.jr, h.encK, h.ok, rfl, by simp⟩⟩

end Verif.Ilm
