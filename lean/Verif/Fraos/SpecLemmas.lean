import Verif.Fraos.Spec
import Verif.Fraos.DatabaseLemmas

/-! # The model refines the list of records -/

namespace Verif.Fraos

/-- The database holds `log`, has taken at most `used` bytes of data and is writable. -/
structure Good (p : Params) (onDisk : Bool) (db : DB) (log : List (List UInt8)) (used : Nat) : Prop where
  ex : ∃ es C, DBInv db es C log ∧ C.length ≤ used
  room : DBRoom db
  wd : db.data.g.writable = true
  wi : db.idx.g.writable = true
  mode : db.idx.g.file.isSome = onDisk
  idxLen : ∀ f, db.idx.g.file = some f → f.len ≤ 16 * used + p.minMmap

theorem Good.more {p : Params} {onDisk : Bool} {db : DB} {log : List (List UInt8)} {m n : Nat}
    (h : Good p onDisk db log m) (hmn : m ≤ n) : Good p onDisk db log n := by
  obtain ⟨es, C, h1, h2⟩ := h.ex
  exact ⟨⟨es, C, h1, le_trans h2 hmn⟩, h.room, h.wd, h.wi, h.mode, fun f hf => by
    have := h.idxLen f hf; omega⟩

theorem diskOK_empty : DiskOK Blob.empty Blob.empty [] 0 := by
  refine ⟨⟨[], [], ⟨by simp [Blob.empty], by simp⟩, ?_, by simp [Blob.empty], ⟨by simp, by simp⟩,
    ⟨.nil, .nil⟩, by norm_num, le_refl _⟩, by norm_num [Blob.empty]⟩
  intro i _ h; simp [Blob.empty] at h

theorem fresh_good (p : Params) (onDisk : Bool) : ∃ db, fresh p onDisk = .ok db ∧ Good p onDisk db [] 0 := by
  unfold fresh
  cases onDisk with
  | true =>
    obtain ⟨db, es, C, e, hinv, hr, hle, hwd, hwi, hfd, hfi⟩ := open_spec (p := p) diskOK_empty true
    exact ⟨db, e, ⟨es, C, hinv, hle⟩, hr, hwd, hwi, by simp [hfi], fun f hf => by
      rw [hfi] at hf; cases hf; simp [Blob.empty]⟩
  | false =>
    obtain ⟨db, e, hinv, hr, hwd, hwi, hf⟩ := memory_spec p
    exact ⟨db, by simpa using e, ⟨[], [], hinv, by simp⟩, hr, hwd, hwi, by simp [hf], fun f h => by
      rw [hf] at h; cases h⟩

theorem good_append {p : Params} (hp : 16 ∣ p.minMmap) {onDisk : Bool} {db : DB}
    {log : List (List UInt8)} {used : Nat} (h : Good p onDisk db log used) {batch : List (List UInt8)}
    (hb : batch ≠ []) (hne : ∀ r ∈ batch, r ≠ []) (hfit : used + (batch.map List.length).sum < 2 ^ 60) :
    ∃ db1, db.append p Faults.none Faults.none batch = (.ok (some log.length), db1) ∧
      Good p onDisk db1 (log ++ batch) (used + (batch.map List.length).sum) := by
  obtain ⟨es, C, hinv, hC⟩ := h.ex
  rw [← List.length_flatten] at hfit ⊢
  rcases append_spec (p := p) hp hinv h.room Faults.none_early Faults.none_early hb hne (by omega) with
    ⟨db1, e, hinv1, hr1, hwd, hwi, hm, hl⟩ | ⟨er, db1, D, e, _, _, _, _, _, _, _, he⟩
  · refine ⟨db1, e, ⟨_, _, hinv1, ?_⟩, hr1, by rw [hwd, h.wd], by rw [hwi, h.wi], by rw [hm, h.mode], ?_⟩
    · rw [List.length_append]; omega
    · intro f hf
      rcases hl f hf with h1 | ⟨b, h1, h2⟩
      · have h3 := hinv1.recs.count_le
        rw [List.length_append, List.length_append, entriesFrom_length] at h3
        have h4 : db.idx.g.newSize p (16 * batch.length) ≤ 16 * batch.length + p.minMmap := by
          unfold GM.newSize
          cases db.idx.g.file <;> simp
        omega
      · have := h.idxLen b h1
        omega
  · exfalso
    rcases he with ⟨_, h1 | h1 | h1 | h1⟩ | ⟨_, h1 | h1⟩
    · cases h1
    · cases h1
    · rw [h.wd] at h1; cases h1
    · rw [h.wi] at h1; cases h1
    · cases h1
    · cases h1

/-- What a reopen needs: the records are there; the active mappings do not matter. -/
structure Closable (onDisk : Bool) (db : DB) (log : List (List UInt8)) (used : Nat) : Prop where
  ex : ∃ es C, DBInv db es C log ∧ C.length ≤ used
  wd : db.data.g.writable = true
  wi : db.idx.g.writable = true
  mode : db.idx.g.file.isSome = onDisk

theorem Closable.reopen {p : Params} {onDisk : Bool} {db : DB} {log : List (List UInt8)} {used : Nat}
    (h : Closable onDisk db log used) :
    ∃ db1, db.reopen p true = .ok db1 ∧ Good p onDisk db1 (if onDisk then log else []) used := by
  obtain ⟨es, C, hinv, hC⟩ := h.ex
  unfold DB.reopen
  cases onDisk with
  | true =>
    have hm := h.mode
    have hm' := hinv.mode
    rw [hm] at hm'
    obtain ⟨fi, hfi⟩ := Option.isSome_iff_exists.mp hm
    obtain ⟨fd, hfd⟩ := Option.isSome_iff_exists.mp hm'
    obtain ⟨e1, e2, hdisk⟩ := hinv.disk_closed hfd hfi h.wd h.wi
    rw [e1, e2]
    obtain ⟨db1, es1, C1, e, hinv1, hr1, hle, hwd, hwi, hfd1, hfi1⟩ := open_spec (p := p) hdisk true
    refine ⟨db1, e, ⟨es1, C1, hinv1, by omega⟩, hr1, hwd, hwi, by simp [hfi1], ?_⟩
    intro f hf
    rw [hfi1] at hf; cases hf
    have h1 := hinv.recs.count_le
    simp only [Blob.setLen_len]; omega
  | false =>
    have hm : db.idx.g.file = none := by have := h.mode; simpa using this
    have hm' : db.data.g.file = none := by have := hinv.mode; rw [hm] at this; simpa using this
    have e1 : db.drop.data.g.file = none := by simp [DB.drop, GM.shrink, hm']
    have e2 : db.drop.idx.g.file = none := by simp [DB.drop, GM.shrink, hm]
    rw [e1, e2]
    obtain ⟨db1, e, hinv1, hr1, hwd, hwi, hf⟩ := memory_spec p
    exact ⟨db1, e, ⟨[], [], by simpa using hinv1, by simp⟩, hr1, hwd, hwi, by simp [hf], fun f h => by
      rw [hf] at h; cases h⟩

theorem good_reopen {p : Params} {onDisk : Bool} {db : DB} {log : List (List UInt8)} {used : Nat}
    (h : Good p onDisk db log used) :
    ∃ db1, db.reopen p true = .ok db1 ∧ Good p onDisk db1 (if onDisk then log else []) used :=
  Closable.reopen ⟨h.ex, h.wd, h.wi, h.mode⟩

/-- One call. -/
theorem step_good {p : Params} (hp : 16 ∣ p.minMmap) {onDisk : Bool} {db : DB}
    {log : List (List UInt8)} {used : Nat} (h : Good p onDisk db log used) {op : Op} (hs : op.small)
    (hfit : used + op.bytes < 2 ^ 60) :
    (step p db op).1 = (specStep onDisk log op).1 ∧
      Good p onDisk (step p db op).2 (specStep onDisk log op).2 (used + op.bytes) := by
  obtain ⟨es, C, hinv, hC⟩ := h.ex
  cases op with
  | append batch =>
    simp only [step, specStep, Op.bytes] at hfit ⊢
    by_cases hb : batch = []
    · subst hb
      simp only [append_empty, if_true]
      exact ⟨trivial, h.more (by simp)⟩
    · rw [if_neg hb]
      by_cases he : [] ∈ batch
      · rw [if_pos he, append_rejects db _ _ he]
        exact ⟨rfl, h.more (by simp)⟩
      · rw [if_neg he]
        obtain ⟨db1, e, hg⟩ := good_append hp h hb (fun r hr hc => he (hc ▸ hr)) hfit
        simp only [e]
        exact ⟨trivial, hg⟩
  | putSeqno r =>
    simp only [step, specStep, Op.bytes, DB.putSeqno] at hfit ⊢
    by_cases hr : r = []
    · subst hr
      rw [if_pos rfl, append_rejects db _ _ (by simp)]
      exact ⟨rfl, h.more (by simp)⟩
    · rw [if_neg hr]
      obtain ⟨db1, e, hg⟩ := good_append hp h (batch := [r]) (by simp) (by simpa using hr) (by simpa using hfit)
      simp only [e]
      exact ⟨rfl, by simpa using hg⟩
  | get i =>
    simp only [step, specStep, Op.small] at hs ⊢
    rw [hinv.get_ok hs]
    exact ⟨rfl, h.more (by simp)⟩
  | len =>
    simp only [step, specStep]
    rw [hinv.len_eq]
    exact ⟨rfl, h.more (by simp)⟩
  | isEmpty =>
    simp only [step, specStep, DB.isEmpty]
    rw [hinv.len_eq]
    refine ⟨?_, h.more (by simp)⟩
    cases log <;> simp
  | last =>
    simp only [step, specStep]
    rw [hinv.last_ok]
    exact ⟨rfl, h.more (by simp)⟩
  | reopen =>
    simp only [step, specStep]
    obtain ⟨db1, e, hg⟩ := good_reopen (p := p) h
    simp only [e]
    exact ⟨trivial, hg.more (by simp)⟩

theorem bytesOf_cons (op : Op) (ops : List Op) : bytesOf (op :: ops) = op.bytes + bytesOf ops := by
  simp [bytesOf]

theorem bytesOf_append (a b : List Op) : bytesOf (a ++ b) = bytesOf a + bytesOf b := by
  simp [bytesOf]

/-- A history. -/
theorem run_good {p : Params} (hp : 16 ∣ p.minMmap) {onDisk : Bool} (ops : List Op) {db : DB}
    {log : List (List UInt8)} {used : Nat} (h : Good p onDisk db log used) (hs : ∀ op ∈ ops, op.small)
    (hfit : used + bytesOf ops < 2 ^ 60) :
    run p db ops = specRun onDisk log ops ∧
      Good p onDisk (after p db ops) (specAfter onDisk log ops) (used + bytesOf ops) := by
  induction ops generalizing db log used with
  | nil => exact ⟨rfl, by simpa [bytesOf, after, specAfter] using h⟩
  | cons op ops ih =>
    rw [bytesOf_cons] at hfit ⊢
    obtain ⟨h1, h2⟩ := step_good hp h (hs op (by simp)) (by omega)
    obtain ⟨h3, h4⟩ := ih h2 (fun o ho => hs o (by simp [ho])) (by omega)
    refine ⟨?_, ?_⟩
    · simp only [run, specRun]; rw [h1, h3]
    · simp only [after, specAfter, List.foldl_cons] at h4 ⊢
      rw [← Nat.add_assoc]; exact h4

theorem specAfter_append (onDisk : Bool) (log : List (List UInt8)) (a b : List Op) :
    specAfter onDisk log (a ++ b) = specAfter onDisk (specAfter onDisk log a) b := by
  simp [specAfter]

theorem after_append (p : Params) (db : DB) (a b : List Op) :
    after p db (a ++ b) = after p (after p db a) b := by simp [after]

/-- Records only get added, except that a new memory database starts empty. -/
theorem specAfter_prefix {onDisk : Bool} (ops : List Op) (log : List (List UInt8))
    (h : onDisk = true ∨ ∀ op ∈ ops, op ≠ .reopen) : log <+: specAfter onDisk log ops := by
  induction ops generalizing log with
  | nil => exact List.prefix_refl _
  | cons op ops ih =>
    have h1 : log <+: (specStep onDisk log op).2 := by
      cases op with
      | append batch => simp only [specStep]; split_ifs <;> simp
      | putSeqno r => simp only [specStep]; split_ifs <;> simp
      | reopen =>
        rcases h with h | h
        · subst h; simp [specStep]
        · exact absurd rfl (h .reopen (by simp))
      | _ => exact List.prefix_refl _
    refine h1.trans ?_
    simp only [specAfter, List.foldl_cons]
    refine ih _ ?_
    rcases h with h | h
    · exact .inl h
    · exact .inr (fun o ho => h o (by simp [ho]))

end Verif.Fraos
