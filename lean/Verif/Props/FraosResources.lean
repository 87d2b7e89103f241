import Verif.Fraos.Resources

/-!
# What a database costs

C91. `log` is the list of records after the history (`specAfter`), `dataBytes log` the number of their bytes. The
theorems hold for all constants with a minimal mapping size that is a multiple of 16 and at least one mapping; in the
code these are 512 KiB and 2048.
-/

namespace Verif.Props

open Verif.Fraos

/-- **C91.** After every history on disk, with closes and reopens anywhere, the data file is as long as the records, or
up to one minimal mapping longer; the index file is 16 bytes per record long, or up to one minimal mapping longer. A
clean close leaves exactly the records and exactly 16 bytes per record. -/
theorem C91_files (p : Params) (hp : 16 ∣ p.minMmap) (hm : 1 ≤ p.maxMaps) (ops : List Op)
    (hbytes : bytesOf ops < 2 ^ 60) (db : DB) (hdb : fresh p true = .ok db) :
    (∃ fd, (after p db ops).data.g.file = some fd ∧ dataBytes (specAfter true [] ops) ≤ fd.len ∧
      fd.len ≤ dataBytes (specAfter true [] ops) + p.minMmap) ∧
    (∃ fi, (after p db ops).idx.g.file = some fi ∧ 16 * (specAfter true [] ops).length ≤ fi.len ∧
      fi.len ≤ 16 * (specAfter true [] ops).length + p.minMmap) ∧
    (∃ fd, (after p db ops).drop.data.g.file = some fd ∧ fd.len = dataBytes (specAfter true [] ops)) ∧
    ∃ fi, (after p db ops).drop.idx.g.file = some fi ∧ fi.len = 16 * (specAfter true [] ops).length := by
  have h := (fresh_cost hm hdb).run hp hm ops (by simpa [dataBytes] using hbytes)
  obtain ⟨es, C, hinv, hC, hes, _, _⟩ := h.good.exact
  obtain ⟨fd, hfd⟩ := Option.isSome_iff_exists.mp h.data.isFile
  obtain ⟨fi, hfi⟩ := Option.isSome_iff_exists.mp h.idx.isFile
  obtain ⟨fd1, fi1, e1, e2, l1, l2⟩ := h.closed
  have hd := h.data.file
  have hi := h.idx.file
  have hd2 := (hinv.dataOK.file fd hfd).1
  have hi2 := (hinv.idxOK.file fi hfi).1
  rw [entriesBytes_length, hes] at hi2
  simp only [fileLen, hfd, hfi, Option.map_some, Option.getD_some] at hd hi
  exact ⟨⟨fd, hfd, by omega, hd⟩, ⟨fi, hfi, hi2, hi⟩, ⟨fd1, e1, l1⟩, fi1, e2, l2⟩

/-- **C91.** On disk, the number of mappings never exceeds the limit by more than the active one. -/
theorem C91_mappings_partial (p : Params) (hp : 16 ∣ p.minMmap) (hm : 1 ≤ p.maxMaps) (ops : List Op)
    (hbytes : bytesOf ops < 2 ^ 60) (db : DB) (hdb : fresh p true = .ok db) :
    (after p db ops).data.g.count ≤ p.maxMaps + 1 ∧ (after p db ops).idx.g.count ≤ p.maxMaps + 1 := by
  have h := (fresh_cost hm hdb).run hp hm ops (by simpa [dataBytes] using hbytes)
  have h1 := h.data.maps
  have h2 := h.idx.maps
  constructor <;> (unfold GM.count; split_ifs <;> omega)

/-- **C91.** On disk, a file is extended rarely: once after each opening, and then at most twice for every minimal
mapping's worth of bytes stored. -/
theorem C91_extensions (p : Params) (hp : 16 ∣ p.minMmap) (hm : 1 ≤ p.maxMaps) (ops : List Op)
    (hbytes : bytesOf ops < 2 ^ 60) (db : DB) (hdb : fresh p true = .ok db) :
    extensions p (·.data.g.file) db ops * p.minMmap ≤
      2 * dataBytes (specAfter true [] ops) + (reopens ops + 1) * p.minMmap ∧
    extensions p (·.idx.g.file) db ops * p.minMmap ≤
      2 * (16 * (specAfter true [] ops).length) + (reopens ops + 1) * p.minMmap := by
  have h := (fresh_cost hm hdb).run hp hm ops (by simpa [dataBytes] using hbytes)
  have h1 := h.data.reopened
  have h2 := h.idx.reopened
  simp only [Nat.zero_add] at h1 h2
  exact ⟨h1, h2⟩

/-- The constants of the code, and a history with two batches and a reopen: 3 records of 6 bytes. -/
example : 16 ∣ Params.code.minMmap ∧ 1 ≤ Params.code.maxMaps ∧
    bytesOf [.append [[1, 2], [3]], .reopen, .putSeqno [4, 5, 6], .append [[]]] < 2 ^ 60 ∧
    dataBytes (specAfter true [] [.append [[1, 2], [3]], .reopen, .putSeqno [4, 5, 6], .append [[]]]) = 6 := by
  decide

/-- **C91.** In memory, every stored batch is a mapping of its own, for the data and for the index, until the database
is closed. -/
theorem C91_memory (p : Params) (hp : 16 ∣ p.minMmap) (ops : List Op) (hbytes : bytesOf ops < 2 ^ 60) (db : DB)
    (hdb : fresh p false = .ok db) :
    (after p db ops).data.g.count = batches ops ∧ (after p db ops).idx.g.count = batches ops := by
  have h := (memory_cost hdb).run hp ops (by simpa using hbytes)
  exact ⟨h.data.count, h.idx.count⟩

/-- **C91** is false in memory: no number bounds the mappings. -/
theorem C91_mappings_false (N : Nat) (hN : N < 2 ^ 60) :
    ∃ (ops : List Op) (db : DB), bytesOf ops = N ∧ fresh Params.code false = .ok db ∧
      (after Params.code db ops).data.g.count = N ∧ (after Params.code db ops).idx.g.count = N := by
  obtain ⟨db, e, _⟩ := fresh_good Params.code false
  have hb : bytesOf (List.replicate N (.putSeqno [0])) = N := by
    simp [bytesOf, Op.bytes]
  have hc : ∀ k n, (List.replicate n (Op.putSeqno [0])).foldl countBatch k = k + n := by
    intro k n
    induction n generalizing k with
    | zero => rfl
    | succ n ih =>
      rw [List.replicate_succ, List.foldl_cons, ih]
      simp only [countBatch]
      rw [if_neg (by simp)]
      omega
  obtain ⟨h1, h2⟩ := C91_memory Params.code (by decide) (List.replicate N (.putSeqno [0])) (by omega) db e
  unfold batches at h1 h2
  rw [hc] at h1 h2
  exact ⟨_, db, hb, e, by omega, by omega⟩

/-- More mappings than the limit of the code. -/
example : Params.code.maxMaps + 1 < 65530 ∧ 65530 < 2 ^ 60 := by decide

end Verif.Props
