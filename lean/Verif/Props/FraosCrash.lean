import Verif.Fraos.Crash

/-!
# C06: crash recovery

`Crash p db batch fd fi j` (`Verif/Fraos/Crash.lean`) says that the process may die while `batch` is
appended to `db` (or between calls, or while the handle is dropped) leaving the data file `fd` and the
index file `fi`, and that the first `j` records of the batch are complete in the index then. `Reached`
collects the states of all histories of calls and crashes, with the list of records that were
acknowledged or recovered.
-/

namespace Verif.Props

open Verif.Fraos

/-- **C06.** Over every history of calls and earlier crashes, whatever point the process dies at, opening
the directory again succeeds; the new database answers every later history as one that holds all earlier
records unchanged, followed by the first `j` records of the batch in flight, and nothing else. -/
theorem C06_recovers (p : Params) (hp : 16 ∣ p.minMmap) (hm : p.minMmap < 2 ^ 62) (db : DB)
    (log batch : List (List UInt8)) (used : Nat) (h : Reached p db log used) (fd fi : Blob) (j : Nat)
    (hc : Crash p db batch fd fi j) (later : List Op)
    (hbytes : used + (batch.map List.length).sum + bytesOf later < 2 ^ 59)
    (hsmall : ∀ op ∈ later, op.small) :
    j ≤ batch.length ∧ ∃ db', DB.openDB p (some fd) (some fi) true = .ok db' ∧
      run p db' later = specRun true (log ++ batch.take j) later := by
  have hg := h.good hp hm (by omega)
  obtain ⟨hdisk, hlen⟩ := hc.disk hp hm hg (by omega)
  obtain ⟨db1, es, C, e, hinv, hr, hle, hwd, hwi, hfd, hfi⟩ := open_spec (p := p) hdisk true
  have hg1 := (Reached.crash h hc e).good hp hm (by omega)
  refine ⟨?_, db1, e, (run_good hp later hg1 hsmall (by omega)).1⟩
  cases hc with
  | idle => omega
  | closing => omega
  | data => omega
  | index hb hne hflat hd hcut =>
    cases hcut with
    | before => omega
    | extended => omega
    | storing _ _ hk =>
      rw [entriesFrom_length] at hk
      omega

/-- **C06.** Between the crashes every call is answered as by the list of records; so the records of
`log` are those acknowledged, plus the prefixes recovered. -/
theorem C06_answers (p : Params) (hp : 16 ∣ p.minMmap) (hm : p.minMmap < 2 ^ 62) (db : DB)
    (log : List (List UInt8)) (used : Nat) (h : Reached p db log used) (ops : List Op)
    (hbytes : used + bytesOf ops < 2 ^ 59) (hsmall : ∀ op ∈ ops, op.small) :
    run p db ops = specRun true log ops :=
  (run_good hp ops (h.good hp hm (by omega)) hsmall (by omega)).1

/-- **C06.** Opening after a crash succeeds although the file contents are arbitrary in the region that
was being written: nothing acknowledged is lost, reordered or altered. -/
theorem C06_acknowledged (p : Params) (hp : 16 ∣ p.minMmap) (hm : p.minMmap < 2 ^ 62) (db : DB)
    (log batch : List (List UInt8)) (used : Nat) (h : Reached p db log used) (fd fi : Blob) (j : Nat)
    (hc : Crash p db batch fd fi j)
    (hbytes : used + (batch.map List.length).sum < 2 ^ 59) :
    ∃ db', DB.openDB p (some fd) (some fi) true = .ok db' ∧
      log.length ≤ db'.len ∧ db'.len ≤ log.length + batch.length ∧
      (∀ i, i < log.length → db'.get p i = db.get p i ∧ db.get p i = .ok log[i]?) ∧
      (∀ i, log.length ≤ i → i < db'.len → db'.get p i = .ok batch[i - log.length]?) := by
  have hg := h.good hp hm (by omega)
  obtain ⟨hj, db1, e, _⟩ := C06_recovers p hp hm db log batch used h fd fi j hc []
    (by simpa [bytesOf] using hbytes) (by simp)
  have hg1 := (Reached.crash h hc e).good hp hm (by omega)
  obtain ⟨es, C, hinv, _⟩ := hg.ex
  obtain ⟨es1, C1, hinv1, _⟩ := hg1.ex
  have hl := hinv1.log_lt
  have hle := hinv1.len_eq
  have htl : (batch.take j).length = j := by rw [List.length_take]; omega
  rw [List.length_append, htl] at hl hle
  refine ⟨db1, e, by omega, by omega, ?_, ?_⟩
  · intro i hi
    rw [hinv1.get_ok (by omega), hinv.get_ok (by omega), List.getElem?_append_left hi]
    exact ⟨rfl, rfl⟩
  · intro i hi hi2
    rw [hinv1.get_ok (by omega), List.getElem?_append_right hi, List.getElem?_take_of_lt (by omega)]

theorem store_file {g : GM} {a : Active} {o off : Nat} {bs : List UInt8} (hm : a.mem = .file o)
    (h : o + off + bs.length ≤ g.fileBlob.len) :
    g.store a off bs = (.ok (), { g with file := g.file.map (·.write (o + off) bs) }) := by
  unfold GM.store
  rw [hm]
  exact if_pos (.inr (le_trans h (le_pageEnd _)))

/-- A process that dies after three of the four words of two index entries: one record is recovered. -/
example : ∃ db fd fi, Reached { Params.code with minMmap := 32 } db [] 0 ∧
    Crash { Params.code with minMmap := 32 } db [[1], [2, 3]] fd fi 1 :=
  ⟨_, _, _, .fresh rfl, .index (by decide) (by decide) rfl rfl
    (.storing (k := 3) rfl rfl (by decide) (store_file rfl (by decide)) rfl)⟩

/-- A process that dies while the data is being written leaves arbitrary bytes. -/
example : ∃ db fd fi, Reached { Params.code with minMmap := 32 } db [] 0 ∧
    Crash { Params.code with minMmap := 32 } db [[1], [2, 3]] fd fi 0 ∧ fd.get 1 = 77 :=
  ⟨_, _, _, .fresh rfl, .data (by decide) (by decide)
    (.storing (f' := ⟨_, fun i => if i = 1 then 77 else 0⟩) rfl rfl rfl rfl rfl (by
      intro i hi
      have : i ≠ 1 := by
        rintro rfl
        revert hi
        decide
      simp only [if_neg this]; rfl)) rfl, rfl⟩

end Verif.Props
