import Verif.Fraos.Handles
import Verif.Fraos.Recover

/-!
# C10 and C11: several handles, failing system calls

Both properties are false of the code; the parts that hold are proved beside the counterexamples.
-/

namespace Verif.Props

open Verif.Fraos

/-- The state of a fresh database on disk. -/
def freshDisk : DB :=
  ⟨⟨⟨some Blob.empty, true, [], [], none⟩, 0⟩, ⟨⟨some Blob.empty, true, [], [], none⟩, 0⟩⟩

/-- The state of a fresh database in memory. -/
def freshMem : DB := ⟨⟨⟨none, true, [], [], none⟩, 0⟩, ⟨⟨none, true, [], [], none⟩, 0⟩⟩

/-- **C10** is false on disk. Dropping a clone cuts the files under the active mappings of the other
handles: an append of 5000 bytes then stores past the last page of the file, which kills the process. -/
theorem C10_append_after_drop_false :
    fresh Params.code true = .ok freshDisk ∧
    hRun Params.code freshDisk [.call (.append [[1]]), .dropClone,
      .call (.append [List.replicate 5000 7])] ≠
    hSpecRun true [] [.call (.append [[1]]), .dropClone, .call (.append [List.replicate 5000 7])] ∧
    (freshDisk.append Params.code Faults.none Faults.none [[1]]).1 = .ok (some 0) ∧
    ((freshDisk.append Params.code Faults.none Faults.none [[1]]).2.drop.append Params.code
      Faults.none Faults.none [List.replicate 5000 7]).1 = .error .fault := by
  have h1 : (freshDisk.append Params.code Faults.none Faults.none [[1]]).1 = .ok (some 0) := by
    decide +kernel
  have h2 : ((freshDisk.append Params.code Faults.none Faults.none [[1]]).2.drop.append Params.code
      Faults.none Faults.none [List.replicate 5000 7]).1 = .error .fault := by decide +kernel
  refine ⟨rfl, ?_, h1, h2⟩
  intro h
  have h3 : (hRun Params.code freshDisk [.call (.append [[1]]), .dropClone,
      .call (.append [List.replicate 5000 7])])[2]? = some (some (.seqno (.error .fault))) := by
    simp only [hRun, hStep, step, List.getElem?_cons_succ, List.getElem?_cons_zero]
    rw [h2]
  have h4 : (hSpecRun true [] [.call (.append [[1]]), .dropClone,
      .call (.append [List.replicate 5000 7])])[2]? = some (some (.seqno (.ok (some 1)))) := by
    decide +kernel
  rw [h, h4] at h3
  simp at h3

/-- **C10** is false on disk. A small append after the drop of a clone is acknowledged with number 1, but
its bytes lie past the end of the cut files: after a clean close the record is gone. -/
theorem C10_lost_record_false :
    ∃ db2 db3 : DB,
      (freshDisk.append Params.code Faults.none Faults.none [[1]]).2.drop = db2 ∧
      (db2.append Params.code Faults.none Faults.none [[2]]).1 = .ok (some 1) ∧
      (db2.append Params.code Faults.none Faults.none [[2]]).2.len = 2 ∧
      (db2.append Params.code Faults.none Faults.none [[2]]).2.reopen Params.code true = .ok db3 ∧
      db3.len = 1 ∧ db3.get Params.code 1 = .ok none := by
  have h : (((freshDisk.append Params.code Faults.none Faults.none [[1]]).2.drop.append Params.code
      Faults.none Faults.none [[2]]).2.reopen Params.code true).map
        (fun db3 => (db3.len, db3.get Params.code 1)) = .ok (1, .ok none) := by decide +kernel
  cases e : ((freshDisk.append Params.code Faults.none Faults.none [[1]]).2.drop.append Params.code
      Faults.none Faults.none [[2]]).2.reopen Params.code true with
  | error x => rw [e] at h; cases h
  | ok db3 =>
    rw [e] at h
    simp only [Except.map, Except.ok.injEq, Prod.mk.injEq] at h
    exact ⟨_, db3, rfl, by decide +kernel, by decide +kernel, e, h.1, h.2⟩

/-- **C10**, the part that holds in memory: any history over any number of handles, clones dropped at any
time, is answered as if no clone had been dropped. -/
theorem C10_memory_partial (p : Params) (hp : 16 ∣ p.minMmap) (ops : List HOp)
    (hbytes : (ops.map HOp.bytes).sum < 2 ^ 60) (hsmall : ∀ op ∈ ops, op.small) :
    ∃ db, fresh p false = .ok db ∧ hRun p db ops = hSpecRun false [] ops := by
  obtain ⟨db, e, hg⟩ := fresh_good p false
  exact ⟨db, e, hRun_memory hp ops hg hsmall (by omega)⟩

/-- **C10**, the part that holds on disk: reads and closes are not disturbed, and neither are appends
unless they come after the drop of a clone in a session that had appended before that drop. -/
theorem C10_disk_partial (p : Params) (hp : 16 ∣ p.minMmap) (ops : List HOp)
    (hcare : Careful false false ops) (hbytes : (ops.map HOp.bytes).sum < 2 ^ 60)
    (hsmall : ∀ op ∈ ops, op.small) :
    ∃ db, fresh p true = .ok db ∧ hRun p db ops = hSpecRun true [] ops := by
  obtain ⟨db, e, hg⟩ := fresh_good p true
  have hact := openDB_active (p := p) (by unfold fresh at e; simpa using e)
  have hc : Calm p db [] 0 false false :=
    ⟨hg.ex, fun _ => hg.room, hg.wd, hg.wi, hg.mode, hg.idxLen, fun _ => hact⟩
  exact ⟨db, e, hRun_calm hp ops hc hcare hsmall (by omega)⟩

/-- A careful history with three drops of clones. -/
example : Careful false false [.dropClone, .call (.append [[1], [2]]), .call (.putSeqno [3]), .dropClone,
    .call (.get 1), .call .last, .call .reopen, .dropClone, .call (.append [[4]]), .call (.get 3)] := by
  simp [Careful]

/-- **C11**, the part that holds: when only the extension of a file or the creation of a mapping fails, a
failed append leaves nothing behind that can be observed, and every later call is answered exactly. -/
theorem C11_consistent_partial (p : Params) (hp : 16 ∣ p.minMmap) (onDisk : Bool) (ops : List FOp)
    (hearly : ∀ op ∈ ops, op.early) (hbytes : (ops.map FOp.bytes).sum < 2 ^ 60) :
    ∃ db, fresh p onDisk = .ok db ∧ Consistent onDisk [] (fTrace p db ops) := by
  obtain ⟨db, e, hg⟩ := fresh_good p onDisk
  exact ⟨db, e, fTrace_consistent hp ops hg hearly (by omega)⟩

/-- A history in which the index cannot be mapped after the data was written. -/
example : ∀ op ∈ ([.failing Faults.none { map := true } [[1], [2]], .call (.append [[3]]),
    .call (.get 0)] : List FOp), op.early := by
  intro op hop
  simp only [List.mem_cons, List.not_mem_nil, or_false] at hop
  rcases hop with rfl | rfl | rfl
  · exact ⟨⟨rfl, rfl, rfl⟩, ⟨rfl, rfl, rfl⟩⟩
  · trivial
  · simp [FOp.early, Op.small]

/-- The append fails, the next one gets number 0 and is read back. -/
example : (freshDisk.append Params.code Faults.none { map := true } [[1], [2]]).1 = .error .mmap ∧
    ((freshDisk.append Params.code Faults.none { map := true } [[1], [2]]).2.append Params.code
      Faults.none Faults.none [[3]]).1 = .ok (some 0) := by decide +kernel

/-- **C11**, what a prudent user gets on disk whichever system call fails: after an append that was answered
with an error (extending, mapping, protecting, flushing or remapping of either file failed) they append
nothing more, and close the directory or die. Until then the length is the number of acknowledged records
and these are read exactly, unless a retired mapping could not be protected. Opening the directory again
succeeds and shows every record of the appends answered as stored, followed by nothing or by the whole
failed batch; from there on every call is answered exactly. Missing for the full property: appending on
after the error, and reads after a failed protection (`C11_data_flush_false`, `C11_index_flush_false`,
`C11_protect_false`). -/
theorem C11_recovers_partial (p : Params) (hp : 16 ∣ p.minMmap) (hm : p.minMmap < 2 ^ 62) (ops : List ROp)
    (hsmall : ∀ op ∈ ops, op.small) (hbytes : (ops.map ROp.bytes).sum < 2 ^ 59) :
    ∃ db, fresh p true = .ok db ∧
      (Prudent false (rTrace p db ops) → Recovers .sound [] (rTrace p db ops)) := by
  obtain ⟨db, e, hg⟩ := fresh_good p true
  exact ⟨db, e, (rTrace_recovers hp hm ops hsmall (by omega)).1 hg⟩

/-- Three prudent histories: the flush of the data fails, the flush of the index fails, and a retired
mapping of the index cannot be protected. After the reopening the failed batch is absent, present and
absent. -/
example :
    Prudent false (rTrace Params.code freshDisk [.failing { flush := true } Faults.none [[1]], .call (.get 0),
      .call .reopen, .call (.append [[2]]), .call (.get 0)]) ∧
    (rTrace Params.code freshDisk [.failing { flush := true } Faults.none [[1]], .call (.get 0),
      .call .reopen, .call (.append [[2]]), .call (.get 0)]).map (·.2) =
      [.seqno (.error .flush), .record (.ok none), .opened (.ok ()), .seqno (.ok (some 0)),
        .record (.ok (some [2]))] ∧
    Prudent false (rTrace Params.code freshDisk [.failing Faults.none { flush := true } [[1], [2]], .die,
      .call (.append [[3]]), .call (.get 1)]) ∧
    (rTrace Params.code freshDisk [.failing Faults.none { flush := true } [[1], [2]], .die,
      .call (.append [[3]]), .call (.get 1)]).map (·.2) =
      [.seqno (.error .flush), .opened (.ok ()), .seqno (.ok (some 2)), .record (.ok (some [2]))] ∧
    (rTrace { Params.code with minMmap := 16 } freshDisk [.call (.append [[1]]),
      .failing Faults.none { protect := true } [[2]], .call .reopen, .call .len, .call (.get 0)]).map (·.2) =
      [.seqno (.ok (some 0)), .seqno (.error .protect), .opened (.ok ()), .number 1,
        .record (.ok (some [1]))] := by
  refine ⟨by simp [rTrace, Prudent], by decide +kernel, by simp [rTrace, Prudent], by decide +kernel,
    by decide +kernel⟩

/-- Reads between the failure and the reopening: the acknowledged record is there, the length is 1; the record of
the failed append can be read if the index was written. -/
example :
    (rTrace Params.code freshDisk [.call (.append [[1]]), .failing { flush := true } Faults.none [[2]], .call (.get 0),
      .call (.get 1), .call .len, .call .last, .call .reopen, .call .len]).map (·.2) =
      [.seqno (.ok (some 0)), .seqno (.error .flush), .record (.ok (some [1])), .record (.ok none), .number 1,
        .record (.ok (some [1])), .opened (.ok ()), .number 1] ∧
    (rTrace Params.code freshDisk [.call (.append [[1]]), .failing Faults.none { flush := true } [[2]], .call (.get 0),
      .call (.get 1), .call .len, .call .last, .call .reopen, .call .len]).map (·.2) =
      [.seqno (.ok (some 0)), .seqno (.error .flush), .record (.ok (some [1])), .record (.ok (some [2])), .number 1,
        .record (.ok (some [1])), .opened (.ok ()), .number 2] := by
  refine ⟨by decide +kernel, by decide +kernel⟩

/-- **C11** is false when flushing the data fails: the next append is acknowledged with number 0, but
number 0 reads as the record of the failed append. -/
theorem C11_data_flush_false :
    (freshDisk.append Params.code { flush := true } Faults.none [[1]]).1 = .error .flush ∧
    ((freshDisk.append Params.code { flush := true } Faults.none [[1]]).2.append Params.code
      Faults.none Faults.none [[2]]).1 = .ok (some 0) ∧
    ((freshDisk.append Params.code { flush := true } Faults.none [[1]]).2.append Params.code
      Faults.none Faults.none [[2]]).2.get Params.code 0 = .ok (some [1]) ∧
    ¬ Consistent true [] (fTrace Params.code freshDisk
      [.failing { flush := true } Faults.none [[1]], .call (.append [[2]]), .call (.get 0)]) := by
  have h1 : (freshDisk.append Params.code { flush := true } Faults.none [[1]]).1 = .error .flush := by
    decide +kernel
  have h2 : ((freshDisk.append Params.code { flush := true } Faults.none [[1]]).2.append Params.code
      Faults.none Faults.none [[2]]).1 = .ok (some 0) := by decide +kernel
  have h3 : ((freshDisk.append Params.code { flush := true } Faults.none [[1]]).2.append Params.code
      Faults.none Faults.none [[2]]).2.get Params.code 0 = .ok (some [1]) := by decide +kernel
  refine ⟨h1, h2, h3, ?_⟩
  simp only [fTrace, fStep, step, Consistent, specStep, h1, h2, h3]
  simp

/-- **C11** is false when flushing the index fails: the next append is acknowledged with number 0, but
number 0 reads as the record of the failed append. -/
theorem C11_index_flush_false :
    (freshDisk.append Params.code Faults.none { flush := true } [[1]]).1 = .error .flush ∧
    ((freshDisk.append Params.code Faults.none { flush := true } [[1]]).2.append Params.code
      Faults.none Faults.none [[2]]).1 = .ok (some 0) ∧
    ((freshDisk.append Params.code Faults.none { flush := true } [[1]]).2.append Params.code
      Faults.none Faults.none [[2]]).2.get Params.code 0 = .ok (some [1]) ∧
    ¬ Consistent true [] (fTrace Params.code freshDisk
      [.failing Faults.none { flush := true } [[1]], .call (.append [[2]]), .call (.get 0)]) := by
  have h1 : (freshDisk.append Params.code Faults.none { flush := true } [[1]]).1 = .error .flush := by
    decide +kernel
  have h2 : ((freshDisk.append Params.code Faults.none { flush := true } [[1]]).2.append Params.code
      Faults.none Faults.none [[2]]).1 = .ok (some 0) := by decide +kernel
  have h3 : ((freshDisk.append Params.code Faults.none { flush := true } [[1]]).2.append Params.code
      Faults.none Faults.none [[2]]).2.get Params.code 0 = .ok (some [1]) := by decide +kernel
  refine ⟨h1, h2, h3, ?_⟩
  simp only [fTrace, fStep, step, Consistent, specStep, h1, h2, h3]
  simp

/-- **C11** is false when flushing the index fails, even for a user who then only reads and reopens: the
append is answered with an error, yet its record can be read at once although the length is still 0, and it
is there after the reopening. -/
theorem C11_failed_batch_appears_false :
    (freshDisk.append Params.code Faults.none { flush := true } [[1]]).1 = .error .flush ∧
    (freshDisk.append Params.code Faults.none { flush := true } [[1]]).2.len = 0 ∧
    (freshDisk.append Params.code Faults.none { flush := true } [[1]]).2.get Params.code 0 =
      .ok (some [1]) ∧
    ((freshDisk.append Params.code Faults.none { flush := true } [[1]]).2.reopen Params.code true).map
      (fun db => (db.len, db.get Params.code 0)) = .ok (1, .ok (some [1])) ∧
    ¬ Consistent true [] (fTrace Params.code freshDisk
      [.failing Faults.none { flush := true } [[1]], .call (.get 0)]) := by
  have h1 : (freshDisk.append Params.code Faults.none { flush := true } [[1]]).1 = .error .flush := by
    decide +kernel
  have h3 : (freshDisk.append Params.code Faults.none { flush := true } [[1]]).2.get Params.code 0 =
      .ok (some [1]) := by decide +kernel
  refine ⟨h1, by decide +kernel, h3, by decide +kernel, ?_⟩
  simp only [fTrace, fStep, step, Consistent, specStep, h1, h3]
  simp

/-- **C11** is false when a retired mapping cannot be made read-only: the address index already names it,
so reading an old record panics. -/
theorem C11_protect_false :
    fresh Params.code false = .ok freshMem ∧
    (freshMem.append Params.code Faults.none Faults.none [[1]]).1 = .ok (some 0) ∧
    ((freshMem.append Params.code Faults.none Faults.none [[1]]).2.append Params.code
      { protect := true } Faults.none [[2]]).1 = .error .protect ∧
    ((freshMem.append Params.code Faults.none Faults.none [[1]]).2.append Params.code
      { protect := true } Faults.none [[2]]).2.get Params.code 0 = .error .panic ∧
    ¬ Consistent false [] (fTrace Params.code freshMem
      [.call (.append [[1]]), .failing { protect := true } Faults.none [[2]], .call (.get 0)]) := by
  have h1 : (freshMem.append Params.code Faults.none Faults.none [[1]]).1 = .ok (some 0) := by
    decide +kernel
  have h2 : ((freshMem.append Params.code Faults.none Faults.none [[1]]).2.append Params.code
      { protect := true } Faults.none [[2]]).1 = .error .protect := by decide +kernel
  have h3 : ((freshMem.append Params.code Faults.none Faults.none [[1]]).2.append Params.code
      { protect := true } Faults.none [[2]]).2.get Params.code 0 = .error .panic := by decide +kernel
  refine ⟨rfl, h1, h2, h3, ?_⟩
  simp only [fTrace, fStep, step, Consistent, specStep, h1, h2, h3]
  simp

end Verif.Props
