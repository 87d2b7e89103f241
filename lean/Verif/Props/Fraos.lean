import Verif.Fraos.Iter

/-!
# Properties of the append-only database

C01–C05, C07, C09 and C57. The meaning of a history is `specRun` (`Verif/Fraos/Spec.lean`): the
database is the list of its records. `p` holds the constants of the code; the theorems hold for all
constants with a minimal mapping size that is a multiple of 16. Together, the batches of a history
have less than `2^60` bytes.
-/

namespace Verif.Props

open Verif.Fraos

/-- Bytes for examples. -/
def sampleOps : List Op :=
  [.append [[1, 2], [3]], .get 1, .append [[], [4]], .append [], .putSeqno [5, 6, 7], .reopen,
   .append [[8]], .get 3, .get 9, .len, .last, .isEmpty]

/-- **C01.** Every history of calls on a fresh database, on disk or in memory, with closes and reopens
anywhere, is answered exactly as by the list of the records appended so far: no read fails. -/
theorem C01_refines (p : Params) (hp : 16 ∣ p.minMmap) (onDisk : Bool) (ops : List Op)
    (hbytes : bytesOf ops < 2 ^ 60) (hsmall : ∀ op ∈ ops, op.small) :
    ∃ db, fresh p onDisk = .ok db ∧ run p db ops = specRun onDisk [] ops := by
  obtain ⟨db, e, hg⟩ := fresh_good p onDisk
  exact ⟨db, e, (run_good hp ops hg hsmall (by omega)).1⟩

/-- The constants of the code qualify, and a history with several batches, a refused one and a reopen. -/
example : 16 ∣ Params.code.minMmap ∧ bytesOf sampleOps < 2 ^ 60 ∧ ∀ op ∈ sampleOps, op.small := by
  refine ⟨by decide, by decide, ?_⟩
  intro op hop
  simp only [sampleOps, List.mem_cons, List.not_mem_nil, or_false] at hop
  rcases hop with rfl | rfl | rfl | rfl | rfl | rfl | rfl | rfl | rfl | rfl | rfl | rfl <;> simp [Op.small]

/-- The specification on that history: the records are numbered 0 to 3. -/
example : specAfter true [] sampleOps = [[1, 2], [3], [5, 6, 7], [8]] := by decide

/-- **C01.** In particular, after every history, reading number `i` gives the `i`-th record ever
appended, or nothing past the end; the length is the number of records. -/
theorem C01_reads (p : Params) (hp : 16 ∣ p.minMmap) (onDisk : Bool) (ops : List Op)
    (hbytes : bytesOf ops < 2 ^ 60) (hsmall : ∀ op ∈ ops, op.small) (db : DB)
    (hdb : fresh p onDisk = .ok db) (i : Nat) (hi : i < 2 ^ 60) :
    (after p db ops).get p i = .ok (specAfter onDisk [] ops)[i]? ∧
    (after p db ops).len = (specAfter onDisk [] ops).length ∧
    (after p db ops).isEmpty = (specAfter onDisk [] ops).isEmpty ∧
    (after p db ops).last p = .ok (specAfter onDisk [] ops).getLast? := by
  obtain ⟨db', e, hg⟩ := fresh_good p onDisk
  rw [hdb] at e; cases e
  obtain ⟨es, C, hinv, _⟩ := (run_good hp ops hg hsmall (by omega)).2.ex
  refine ⟨hinv.get_ok hi, hinv.len_eq, ?_, hinv.last_ok⟩
  unfold DB.isEmpty
  rw [hinv.len_eq]
  cases specAfter onDisk [] ops <;> simp

/-- **C57.** Past the end every sequence number below `2^60` reads as `None` — but the code multiplies the
number by 16 in `usize`: with overflow checks larger numbers panic, without them they wrap around and
read a record that has another number. -/
theorem C57_past_the_end_false :
    (∃ (ops : List Op) (db : DB) (i : Nat), fresh Params.code false = .ok db ∧
      (specAfter false [] ops).length ≤ i ∧ i < 2 ^ 64 ∧
      (after Params.code db ops).get Params.code i = .ok (some [7])) ∧
    (∃ (ops : List Op) (db : DB) (i : Nat),
      fresh { Params.code with checked := true } false = .ok db ∧
      (specAfter false [] ops).length ≤ i ∧ i < 2 ^ 64 ∧
      (after { Params.code with checked := true } db ops).get { Params.code with checked := true } i
        = .error .panic) := by
  refine ⟨⟨[.append [[7]]], ?_⟩, ⟨[], ?_⟩⟩
  · obtain ⟨db, e, hg⟩ := fresh_good Params.code false
    refine ⟨db, 2 ^ 60, e, by decide, by decide, ?_⟩
    obtain ⟨es, C, hinv, _⟩ := (run_good (p := Params.code) (by decide) [.append [[7]]] hg
      (by simp [Op.small]) (by decide)).2.ex
    have h0 := hinv.get_ok (p := Params.code) (i := 0) (by decide)
    unfold DB.get at h0 ⊢
    rw [getEntry_huge_wraps (i := 0) rfl _ (by decide) (by decide)]
    exact h0
  · obtain ⟨db, e, hg⟩ := fresh_good { Params.code with checked := true } false
    refine ⟨db, 2 ^ 60, e, by decide, by decide, ?_⟩
    unfold DB.get
    rw [getEntry_huge_checked rfl _ (by decide)]

/-- **C57**, the part that holds. -/
theorem C57_past_the_end_partial (p : Params) (hp : 16 ∣ p.minMmap) (onDisk : Bool) (ops : List Op)
    (hbytes : bytesOf ops < 2 ^ 60) (hsmall : ∀ op ∈ ops, op.small) (db : DB)
    (hdb : fresh p onDisk = .ok db) (i : Nat) (hi : i < 2 ^ 60)
    (hpast : (specAfter onDisk [] ops).length ≤ i) : (after p db ops).get p i = .ok none := by
  rw [(C01_reads p hp onDisk ops hbytes hsmall db hdb i hi).1, List.getElem?_eq_none hpast]

/-- **C57**, exactly what every number answers, however large: below `2^60` the record of that number or `None`;
from there on a panic if overflows are checked, and otherwise the answer of the number modulo `2^60`. -/
theorem C57_every_number (p : Params) (hp : 16 ∣ p.minMmap) (onDisk : Bool) (ops : List Op)
    (hbytes : bytesOf ops < 2 ^ 60) (hsmall : ∀ op ∈ ops, op.small) (db : DB)
    (hdb : fresh p onDisk = .ok db) (i : Nat) :
    (after p db ops).get p i =
      if i < 2 ^ 60 ∨ p.checked = false then .ok (specAfter onDisk [] ops)[i % 2 ^ 60]?
      else .error .panic := by
  rcases Nat.lt_or_ge i (2 ^ 60) with hi | hi
  · rw [if_pos (.inl hi), Nat.mod_eq_of_lt hi]
    exact (C01_reads p hp onDisk ops hbytes hsmall db hdb i hi).1
  · cases hc : p.checked with
    | true =>
      rw [if_neg (by simp; omega)]
      unfold DB.get
      rw [getEntry_huge_checked hc _ (by omega)]
    | false =>
      rw [if_pos (.inr rfl), ← (C01_reads p hp onDisk ops hbytes hsmall db hdb (i % 2 ^ 60) (by omega)).1]
      unfold DB.get
      rw [getEntry_huge_wraps (i := i % 2 ^ 60) hc _ (by omega) (by omega)]

example : ∃ db, fresh Params.code true = .ok db ∧ (2 ^ 60 + 1) % 2 ^ 60 = 1 ∧
    (after Params.code db [.append [[7], [8]]]).get Params.code (2 ^ 60 + 1) = .ok (some [8]) := by
  obtain ⟨db, e, -⟩ := fresh_good Params.code true
  refine ⟨db, e, by decide, ?_⟩
  rw [C57_every_number Params.code (by decide) true [.append [[7], [8]]] (by decide) (by simp [Op.small]) db e,
    if_pos (.inr rfl)]
  decide

/-- **C02.** After every history, appending a non-empty batch of non-empty records answers the number of
records stored so far; its records can be read under that number and the following ones after every
later history, and the earlier records keep their numbers and bytes. A new memory database starts over,
so in memory the later history contains no `reopen`. -/
theorem C02_numbers (p : Params) (hp : 16 ∣ p.minMmap) (onDisk : Bool) (ops later : List Op)
    (batch : List (List UInt8)) (hb : batch ≠ []) (hne : ∀ r ∈ batch, r ≠ [])
    (hbytes : bytesOf (ops ++ .append batch :: later) < 2 ^ 60)
    (hsmall : ∀ op ∈ ops ++ .append batch :: later, op.small)
    (hlater : onDisk = true ∨ ∀ op ∈ later, op ≠ .reopen) (db : DB)
    (hdb : fresh p onDisk = .ok db) :
    ((after p db ops).append p Faults.none Faults.none batch).1 = .ok (some (after p db ops).len) ∧
    (∀ j, j < batch.length → (after p db (ops ++ .append batch :: later)).get p
      ((after p db ops).len + j) = .ok batch[j]?) ∧
    (∀ i, i < (after p db ops).len → (after p db (ops ++ .append batch :: later)).get p i =
      (after p db ops).get p i ∧ ∃ r, (after p db ops).get p i = .ok (some r)) := by
  obtain ⟨db', e, hg⟩ := fresh_good p onDisk
  rw [hdb] at e; cases e
  have hb1 : bytesOf ops < 2 ^ 60 := by rw [bytesOf_append] at hbytes; omega
  have hb2 : bytesOf ops + (batch.map List.length).sum < 2 ^ 60 := by
    rw [bytesOf_append, bytesOf_cons] at hbytes
    simp only [Op.bytes] at hbytes; omega
  have h1 := (run_good hp ops hg (fun o ho => hsmall o (by simp [ho])) (by omega)).2
  obtain ⟨es, C, hinv, _⟩ := h1.ex
  obtain ⟨db1, e1, hg1⟩ := good_append hp h1 hb hne (by omega)
  obtain ⟨es2, C2, hinv2, _⟩ := (run_good hp _ hg hsmall (by omega)).2.ex
  have hstep : (specStep onDisk (specAfter onDisk [] ops) (.append batch)).2 =
      specAfter onDisk [] ops ++ batch := by
    simp only [specStep]
    rw [if_neg hb, if_neg (fun h => hne [] h rfl)]
  have hpre : specAfter onDisk [] ops ++ batch <+: specAfter onDisk [] (ops ++ .append batch :: later) := by
    rw [specAfter_append]
    have : specAfter onDisk (specAfter onDisk [] ops) (.append batch :: later) =
        specAfter onDisk (specAfter onDisk [] ops ++ batch) later := by
      rw [← hstep]; rfl
    rw [this]
    exact specAfter_prefix later _ hlater
  obtain ⟨post, hpost⟩ := hpre
  have hlen := hinv2.log_lt
  rw [← hpost] at hlen
  simp only [List.length_append] at hlen
  refine ⟨by rw [e1, hinv.len_eq], ?_, ?_⟩
  · intro j hj
    rw [hinv2.get_ok (by rw [hinv.len_eq]; omega), ← hpost, hinv.len_eq, List.append_assoc,
      List.getElem?_append_right (by omega), Nat.add_sub_cancel_left, List.getElem?_append_left hj]
  · intro i hi
    rw [hinv.len_eq] at hi
    rw [hinv2.get_ok (by omega), hinv.get_ok (by omega), ← hpost, List.append_assoc,
      List.getElem?_append_left hi]
    exact ⟨rfl, _, by rw [List.getElem?_eq_getElem hi]⟩

/-- A single record gets its own number. -/
theorem C02_put (p : Params) (hp : 16 ∣ p.minMmap) (onDisk : Bool) (ops : List Op)
    (r : List UInt8) (hr : r ≠ []) (hbytes : bytesOf (ops ++ [.putSeqno r]) < 2 ^ 60)
    (hsmall : ∀ op ∈ ops, op.small) (db : DB) (hdb : fresh p onDisk = .ok db) :
    ((after p db ops).putSeqno p Faults.none Faults.none r).1 = .ok (after p db ops).len ∧
    ((after p db ops).putSeqno p Faults.none Faults.none r).2.get p (after p db ops).len = .ok (some r) := by
  obtain ⟨db', e, hg⟩ := fresh_good p onDisk
  rw [hdb] at e; cases e
  rw [bytesOf_append, bytesOf_cons] at hbytes
  simp only [Op.bytes] at hbytes
  have h1 := (run_good hp ops hg hsmall (by omega)).2
  obtain ⟨es, C, hinv, _⟩ := h1.ex
  obtain ⟨db1, e1, hg1⟩ := good_append hp h1 (batch := [r]) (by simp) (by simpa using hr) (by simp; omega)
  unfold DB.putSeqno
  simp only [e1, hinv.len_eq, true_and]
  obtain ⟨es1, C1, hinv1, _⟩ := hg1.ex
  rw [hinv1.get_ok (by have := hinv.log_lt; omega)]
  simp

example : ∃ ops later : List Op, ∃ batch : List (List UInt8), batch ≠ [] ∧ (∀ r ∈ batch, r ≠ []) ∧
    bytesOf (ops ++ .append batch :: later) < 2 ^ 60 ∧
    ∀ op ∈ ops ++ .append batch :: later, op.small :=
  ⟨[.append [[1], [2, 2]], .reopen], [.append [[9]], .reopen, .get 3], [[3, 4], [5]], by decide, by decide,
    by decide, by
      intro op hop
      simp only [List.cons_append, List.nil_append, List.mem_cons, List.not_mem_nil, or_false] at hop
      rcases hop with rfl | rfl | rfl | rfl | rfl | rfl <;> simp [Op.small]⟩

/-- **C03.** A batch with an empty record anywhere in it is refused, an empty batch answers `None`, and
in both cases every later history is answered as if the call had not been made. Holds in every state and
under every system failure. -/
theorem C03_rejected (p : Params) (db : DB) (fd fi : Faults) (before behind : List (List UInt8))
    (later : List Op) :
    (db.append p fd fi (before ++ [] :: behind)).1 = .error .emptyRecord ∧
    run p (db.append p fd fi (before ++ [] :: behind)).2 later = run p db later ∧
    (db.append p fd fi []).1 = .ok none ∧ run p (db.append p fd fi []).2 later = run p db later := by
  rw [append_rejects db fd fi (by simp)]
  exact ⟨rfl, rfl, rfl, rfl⟩

/-- **C03.** The refused calls can be left out of every history without changing any other answer. -/
theorem C03_invisible (p : Params) (ops later : List Op) (batch : List (List UInt8))
    (hbad : batch = [] ∨ [] ∈ batch) (db : DB) :
    run p db (ops ++ .append batch :: later) =
      run p db ops ++ [.seqno (if batch = [] then .ok none else .error .emptyRecord)] ++
        run p (after p db ops) later := by
  have happ : ∀ (d : DB) (l1 l2 : List Op), run p d (l1 ++ l2) = run p d l1 ++ run p (after p d l1) l2 := by
    intro d l1
    induction l1 generalizing d with
    | nil => intro l2; rfl
    | cons o l1 ih => intro l2; simp only [List.cons_append, run, after, List.foldl_cons] at ih ⊢; rw [ih]
  rw [happ, List.append_assoc]
  congr 1
  simp only [run, step]
  rcases hbad with rfl | hbad
  · rfl
  · rw [append_rejects _ _ _ hbad]
    have : batch ≠ [] := by intro h; rw [h] at hbad; simp at hbad
    rw [if_neg this]; rfl

example : ∃ b : List (List UInt8), [] ∈ b ∧ b.length = 3 := ⟨[[1], [], [2]], by decide, rfl⟩

/-- **C04.** After every history, an iterator started at `n` yields the records `n`, `n+1`, … in order,
each once, and then nothing, however often it is called. -/
theorem C04_iterates (p : Params) (hp : 16 ∣ p.minMmap) (onDisk : Bool) (ops : List Op)
    (hbytes : bytesOf ops < 2 ^ 60) (hsmall : ∀ op ∈ ops, op.small) (db : DB)
    (hdb : fresh p onDisk = .ok db) (n k : Nat) (hn : n < 2 ^ 60) :
    nexts p (after p db ops) k n =
      (((((specAfter onDisk [] ops).drop n).map some) ++ List.replicate k none).take k).map Except.ok := by
  obtain ⟨db', e, hg⟩ := fresh_good p onDisk
  rw [hdb] at e; cases e
  obtain ⟨es, C, hinv, _⟩ := (run_good hp ops hg hsmall (by omega)).2.ex
  generalize specAfter onDisk [] ops = log at hinv
  have hlt := hinv.log_lt
  induction k generalizing n with
  | zero => simp [nexts]
  | succ k ih =>
    simp only [nexts]
    rw [hinv.next_ok hn]
    by_cases hc : n < log.length
    · rw [if_pos hc, ih (n + 1) (by omega)]
      rw [List.drop_eq_getElem_cons hc, List.getElem?_eq_getElem hc]
      simp only [List.map_cons, List.cons_append, List.take_succ_cons]
      congr 2
      rw [List.take_append, List.take_append]
      congr 1
      simp only [List.take_replicate, List.length_map, List.length_drop]
      congr 1
      omega
    · rw [if_neg hc, ih n hn]
      rw [List.drop_eq_nil_of_le (by omega), List.getElem?_eq_none (by omega)]
      simp only [List.map_nil, List.nil_append, List.take_replicate, Nat.min_self, List.replicate_succ,
        List.take_succ_cons, List.map_cons]

/-- **C04.** Any number of iterators, started anywhere and called in any interleaving with appends, each
walks through the records in order, and goes on after a later append when it had reached the end. -/
theorem C04_interleaved (p : Params) (hp : 16 ∣ p.minMmap) (onDisk : Bool) (ops : List Op)
    (its : List IterOp) (hbytes : bytesOf ops + (its.map IterOp.bytes).sum < 2 ^ 60)
    (hsmall : ∀ op ∈ ops, op.small) (hits : ∀ op ∈ its, op.small) (db : DB)
    (hdb : fresh p onDisk = .ok db) :
    iterRun p (after p db ops) [] its = iterSpecRun (specAfter onDisk [] ops) [] its := by
  obtain ⟨db', e, hg⟩ := fresh_good p onDisk
  rw [hdb] at e; cases e
  exact iterRun_good hp its (run_good hp ops hg hsmall (by omega)).2 (by simp) hits (by omega)

/-- An iterator that reached the end sees a record appended later. -/
example : iterSpecRun [[1], [2]] [] [.start 1, .next 0, .next 0, .append [[3]], .next 0] =
    [none, some (.ok (some [2])), some (.ok none), none, some (.ok (some [3]))] := rfl

/-- **C05.** After every history of appends, closes and reopens on disk, closing and opening the directory
succeeds and the new handle answers every further history as the old one would: same records, same
numbers, and appends go on. -/
theorem C05_reopen (p : Params) (hp : 16 ∣ p.minMmap) (ops later : List Op)
    (hbytes : bytesOf (ops ++ later) < 2 ^ 60) (hsmall : ∀ op ∈ ops ++ later, op.small) (db : DB)
    (hdb : fresh p true = .ok db) :
    ∃ db1, (after p db ops).reopen p true = .ok db1 ∧
      run p db1 later = run p (after p db ops) later ∧
      run p db1 later = specRun true (specAfter true [] ops) later := by
  obtain ⟨db', e, hg⟩ := fresh_good p true
  rw [hdb] at e; cases e
  rw [bytesOf_append] at hbytes
  have h1 := (run_good hp ops hg (fun o ho => hsmall o (by simp [ho])) (by omega)).2
  obtain ⟨db1, e1, hg1⟩ := good_reopen (p := p) h1
  have h2 := (run_good hp later hg1 (fun o ho => hsmall o (by simp [ho])) (by omega)).1
  have h3 := (run_good hp later h1 (fun o ho => hsmall o (by simp [ho])) (by omega)).1
  exact ⟨db1, e1, by rw [h2, h3]; rfl, h2⟩

/-- **C05.** A directory opened read-only after a clean close shows the same records; appends to it fail
and leave everything as it was. -/
theorem C05_readonly (p : Params) (hp : 16 ∣ p.minMmap) (ops : List Op)
    (hbytes : bytesOf ops < 2 ^ 60) (hsmall : ∀ op ∈ ops, op.small) (db : DB)
    (hdb : fresh p true = .ok db) :
    ∃ ro, (after p db ops).reopen p false = .ok ro ∧ ro.len = (specAfter true [] ops).length ∧
      (∀ i, i < 2 ^ 60 → ro.get p i = .ok (specAfter true [] ops)[i]?) ∧
      ∀ batch : List (List UInt8), batch ≠ [] → (∀ r ∈ batch, r ≠ []) →
        bytesOf ops + (batch.map List.length).sum < 2 ^ 60 →
        (ro.append p Faults.none Faults.none batch).1 = .error .extend ∧
        ∀ i, i < 2 ^ 60 → (ro.append p Faults.none Faults.none batch).2.get p i =
          .ok (specAfter true [] ops)[i]? := by
  obtain ⟨db', e, hg⟩ := fresh_good p true
  rw [hdb] at e; cases e
  have h1 := (run_good hp ops hg hsmall (by omega)).2
  obtain ⟨es, C, hinv, hC⟩ := h1.ex
  have hm := h1.mode
  have hm' := hinv.mode
  rw [hm] at hm'
  obtain ⟨fi, hfi⟩ := Option.isSome_iff_exists.mp hm
  obtain ⟨fd, hfd⟩ := Option.isSome_iff_exists.mp hm'
  obtain ⟨e1, e2, hdisk⟩ := hinv.disk_closed hfd hfi h1.wd h1.wi
  obtain ⟨ro, es1, C1, e3, hinv1, hr1, hle, hwd, hwi, hfd1, hfi1⟩ := open_spec (p := p) hdisk false
  refine ⟨ro, by unfold DB.reopen; rw [e1, e2]; exact e3, hinv1.len_eq, fun i hi => hinv1.get_ok hi, ?_⟩
  intro batch hb hne hfit
  rw [← List.length_flatten] at hfit
  rcases append_spec (p := p) hp hinv1 hr1 Faults.none_early Faults.none_early hb hne (by omega) with
    ⟨db2, e4, hinv2, hr2, hw2, hwi2, _⟩ | ⟨er, db2, D, e4, hinv2, _, _, _, _, _, _, he⟩
  · -- writing needs a new mapping, which a read-only file refuses
    exfalso
    have hact : ro.data.g.active = none := by
      revert e3
      unfold DB.openDB
      intro e3
      split at e3
      · cases e3
      · split at e3
        · cases e3
        · split at e3
          · cases e3
          · split at e3
            · cases e3
            · split at e3
              · cases e3
              · rename_i d hd
                cases e3
                revert hd
                unfold Appender.new GM.new
                intro hd
                simp only at hd
                split at hd
                · cases hd
                · rename_i g hgnew
                  cases hd
                  revert hgnew
                  split
                  · intro h; cases h
                  · split
                    · intro h; cases h; rfl
                    · intro h; cases h; rfl
    revert e4
    unfold DB.append flatAppend Appender.append GM.grow GM.makeRoom
    have hpos : (batch.map List.length).sum ≠ 0 := by
      cases batch with
      | nil => exact absurd rfl hb
      | cons r rs =>
        have := List.length_pos_of_ne_nil (hne r (by simp))
        simp only [List.map_cons, List.sum_cons]; omega
    have hbe : batch.isEmpty = false := by cases batch with
      | nil => exact absurd rfl hb
      | cons => rfl
    simp only [hbe, any_isEmpty_false hne, hact, GM.createMmap, hfd1, hwd]
    simp [hpos]
  · refine ⟨?_, ?_⟩
    · rw [e4]
      rcases he with ⟨rfl, _⟩ | ⟨_, h | h⟩
      · rfl
      · cases h
      · cases h
    · intro i hi
      rw [e4]
      exact hinv2.get_ok hi

/-- **C07.** An index file of `len` entries whose first `k` lengths are not zero and whose other lengths
are zero: the recovery search finds exactly `k`. -/
theorem C07_padded (p : Params) (f : Blob) (w : Bool) (a : Appender)
    (ha : Appender.new (some f) w none = .ok a) (len k : Nat) (hlen : 0 < len) (hf : f.len = 16 * len)
    (hlt : f.len < 2 ^ 64) (hk : k ≤ len)
    (hnz : ∀ i, i < k → fromLe (f.read (16 * i + 8) 8) ≠ 0)
    (hz : ∀ i, k ≤ i → i < len → fromLe (f.read (16 * i + 8) 8) = 0) :
    findEnd (lengthAt p a) (idxLen a) = .ok k := by
  obtain ⟨g0, e0, hok0, hr0, hb0, hf0, hw0⟩ := new_file (fileHas_self f) w none (by simp)
  unfold Appender.new at ha
  rw [e0] at ha
  cases ha
  have hlen0 : g0.len = f.len := by rw [hok0.len_eq]; simp
  have hl : idxLen ⟨g0, g0.len⟩ = len := by unfold idxLen; simp only; omega
  rw [hl]
  apply findEnd_padded (L := fun i => fromLe (f.read (16 * i + 8) 8)) _ hlen hk hnz hz
  intro i hi
  unfold lengthAt
  rw [getEntry_spec (a := ⟨g0, g0.len⟩) hok0 (by
    intro b hb
    rw [hb0 b hb]; simp [hf]) (by omega), if_pos (by simp; omega),
    (fileHas_self f).entryAt (by simp; omega)]

/-- **C07.** On arbitrary contents the search ends, without error, at a position that is the end of the
index or has length zero, and whose predecessor (if any) has a non-zero length; so with a zero-length
last entry it is a zero entry at or after the first one. -/
theorem C07_arbitrary (p : Params) (f : Blob) (w : Bool) (a : Appender)
    (ha : Appender.new (some f) w none = .ok a) (len : Nat) (hlen : 0 < len) (hf : f.len = 16 * len)
    (hlt : f.len < 2 ^ 64) :
    ∃ r, findEnd (lengthAt p a) (idxLen a) = .ok r ∧ r ≤ len ∧
      (r < len → fromLe (f.read (16 * r + 8) 8) = 0) ∧
      (0 < r → fromLe (f.read (16 * (r - 1) + 8) 8) ≠ 0) ∧
      (fromLe (f.read (16 * (len - 1) + 8) 8) = 0 → r < len) ∧
      (∀ z, (∀ i, i < z → fromLe (f.read (16 * i + 8) 8) ≠ 0) → z < len → z ≤ r) := by
  obtain ⟨g0, e0, hok0, hr0, hb0, hf0, hw0⟩ := new_file (fileHas_self f) w none (by simp)
  unfold Appender.new at ha
  rw [e0] at ha
  cases ha
  have hlen0 : g0.len = f.len := by rw [hok0.len_eq]; simp
  have hl : idxLen ⟨g0, g0.len⟩ = len := by unfold idxLen; simp only; omega
  rw [hl]
  obtain ⟨r, e, h1, h2, h3⟩ := findEnd_spec (at_ := lengthAt p ⟨g0, g0.len⟩)
    (L := fun i => fromLe (f.read (16 * i + 8) 8)) (len := len) (by
      intro i hi
      unfold lengthAt
      rw [getEntry_spec (a := ⟨g0, g0.len⟩) hok0 (by
        intro b hb
        rw [hb0 b hb]; simp [hf]) (by omega), if_pos (by simp; omega),
        (fileHas_self f).entryAt (by simp; omega)]) hlen
  refine ⟨r, e, h1, h2, h3, ?_, ?_⟩
  · intro hlast
    by_contra hc
    have hr : r = len := by omega
    subst hr
    exact h3 hlen hlast
  · intro z hz hzl
    by_contra hc
    exact hz r (by omega) (h2 (by omega))

/-- A file of three entries, the last one padding, is opened and its end found. -/
example : (match Appender.new (some ⟨48, fun i => if i = 8 ∨ i = 24 then 5 else 0⟩) true none with
    | .ok a => findEnd (lengthAt Params.code a) (idxLen a)
    | .error e => .error e) = .ok 2 := by rfl

/-! ### C09: address lookup -/

/-- Mappers of one mapping that can be built by accepted calls. -/
inductive BuiltChunk : Chunk → Prop
  | new (s : Nat) : BuiltChunk ⟨s, []⟩
  | relative {c c' : Chunk} (e : Nat) : BuiltChunk c → c.appendRelative e = .ok c' → BuiltChunk c'
  | global {c c' : Chunk} (e : Nat) : BuiltChunk c → c.appendGlobal e = .ok c' → BuiltChunk c'

/-- Indexes that can be built by accepted calls. -/
inductive BuiltIndex : Index → Prop
  | new : BuiltIndex []
  | append {ix ix' : Index} {c : Chunk} : BuiltIndex ix → BuiltChunk c → ix.append c = .ok ix' →
      BuiltIndex ix'

theorem builtChunk_appendRelative {c c' : Chunk} {e : Nat} (h : c.bounds = [] ∨ c.OK)
    (he : c.appendRelative e = .ok c') : c'.OK := by
  unfold Chunk.appendRelative at he
  split at he
  · cases he
  · split at he
    · cases he
    · rename_i h1 h2
      cases he
      rcases h with h | h
      · obtain ⟨s, bs⟩ := c
        simp only at h
        subst h
        exact Chunk.single_ok s (by omega)
      · exact h.appended (by unfold Chunk.size; omega)

theorem builtChunk_ok {c : Chunk} (h : BuiltChunk c) : c.bounds = [] ∨ c.OK := by
  induction h with
  | new s => exact .inl rfl
  | relative e _ he ih => exact .inr (builtChunk_appendRelative ih he)
  | global e _ he ih =>
    unfold Chunk.appendGlobal at he
    split at he
    · cases he
    · split at he
      · cases he
      · exact .inr (builtChunk_appendRelative ih he)

theorem builtIndex_chain {ix : Index} (h : BuiltIndex ix) : Chain 0 ix (Index.total ix) := by
  induction h with
  | new => rfl
  | @append ix ix' c _ hc he ih =>
    unfold Index.append at he
    split at he
    · cases he; exact ih
    · split at he
      · cases he
      · rename_i h1 h2
        cases he
        have hok : c.OK := by
          rcases builtChunk_ok hc with h | h
          · exfalso; apply h1; simp [Chunk.isEmpty, Chunk.size, h]
          · exact h
        have hch : Chain 0 (ix ++ [c]) c.stop :=
          ih.append ⟨by omega, hok, rfl⟩
        rw [hch.total]
        exact hch

/-- **C09.** What the calls add. The mapper of one mapping accepts exactly the ends after its own, global or relative to its
start, and has them as a boundary from then on; an index accepts exactly the mappers that are empty, which it ignores, or
begin at its total length. -/
theorem C09_appended (c c' : Chunk) (e : Nat) (ix ix' : Index) :
    (c.appendGlobal e = .ok c' ↔ c.stop < e ∧ c'.start = c.start ∧ globalBounds [c'] = globalBounds [c] ++ [e]) ∧
    (c.appendRelative e = .ok c' ↔
      c.stop < c.start + e ∧ c'.start = c.start ∧ globalBounds [c'] = globalBounds [c] ++ [c.start + e]) ∧
    (ix.append c = .ok ix' ↔ c.stop = c.start ∧ ix' = ix ∨ c.start < c.stop ∧ c.start = ix.total ∧
      globalBounds ix' = globalBounds ix ++ globalBounds [c] ∧ ix'.length = ix.length + 1 ∧ ix'.getLast? = some c ∧
      ix'.total = c.stop ∧ ix <+: ix') := by
  have hrel : ∀ e, c.appendRelative e = .ok c' ↔
      c.stop < c.start + e ∧ c'.start = c.start ∧ globalBounds [c'] = globalBounds [c] ++ [c.start + e] := by
    intro e
    have hb : globalBounds [c'] = globalBounds [c] ++ [c.start + e] ∧ c'.start = c.start ↔
        c' = { c with bounds := c.bounds ++ [e] } := by
      obtain ⟨s, bs⟩ := c
      obtain ⟨s', bs'⟩ := c'
      simp only [globalBounds, List.flatMap_cons, List.flatMap_nil, List.append_nil, Chunk.mk.injEq]
      constructor
      · rintro ⟨h1, rfl⟩
        refine ⟨rfl, ?_⟩
        have : bs'.map (s' + ·) = (bs ++ [e]).map (s' + ·) := by rw [h1]; simp
        exact (List.map_injective_iff.mpr (fun a b h => by simpa using h)) this
      · rintro ⟨rfl, rfl⟩; simp
    rw [and_comm (a := c'.start = c.start), hb]
    unfold Chunk.appendRelative Chunk.stop
    by_cases h0 : e = 0
    · rw [if_pos h0]
      simp only [reduceCtorEq, false_iff]
      rintro ⟨h1, _⟩; omega
    · rw [if_neg h0]
      by_cases h1 : c.bounds.getLast?.getD 0 ≥ e
      · rw [if_pos h1]
        simp only [reduceCtorEq, false_iff]
        rintro ⟨h2, _⟩; omega
      · rw [if_neg h1, Except.ok.injEq]
        constructor
        · rintro rfl; exact ⟨by omega, rfl⟩
        · rintro ⟨_, rfl⟩; rfl
  refine ⟨?_, hrel e, ?_⟩
  · have hs : c.stop = c.start + c.bounds.getLast?.getD 0 := rfl
    unfold Chunk.appendGlobal
    by_cases h1 : e < c.start
    · rw [if_pos h1]
      simp only [reduceCtorEq, false_iff]
      rintro ⟨h2, _⟩; omega
    · rw [if_neg h1]
      by_cases h2 : e = c.start
      · rw [if_pos h2]
        simp only [reduceCtorEq, false_iff]
        rintro ⟨h2, _⟩; omega
      · rw [if_neg h2, hrel, Nat.add_sub_cancel' (by omega : c.start ≤ e)]
  · have hs : c.stop = c.start + c.size := rfl
    unfold Index.append
    by_cases h0 : c.isEmpty = true
    · have h0' : c.size = 0 := by simpa [Chunk.isEmpty] using h0
      rw [if_pos h0, Except.ok.injEq]
      constructor
      · rintro rfl; exact .inl ⟨by omega, rfl⟩
      · rintro (⟨_, rfl⟩ | ⟨h1, _⟩)
        · rfl
        · omega
    · have h0' : c.size ≠ 0 := by simpa [Chunk.isEmpty] using h0
      rw [if_neg h0]
      by_cases h1 : c.start ≠ ix.total
      · rw [if_pos h1]
        simp only [reduceCtorEq, false_iff]
        rintro (⟨h2, _⟩ | ⟨_, h2, _⟩)
        · omega
        · exact h1 h2
      · rw [if_neg h1, Except.ok.injEq]
        constructor
        · rintro rfl
          refine .inr ⟨by omega, by omega, globalBounds_append _ _, by simp, by simp, by simp [Index.total], by simp⟩
        · rintro (⟨h2, _⟩ | ⟨_, _, _, hl, hlast, _, t, rfl⟩)
          · omega
          · have : t.length = 1 := by simpa using hl
            obtain ⟨x, rfl⟩ := List.length_eq_one_iff.mp this
            simp at hlast
            rw [hlast]

/-- **C09.** Over every index built by accepted calls, the lookup of an address below the total length
gives the mapping that contains it, the offset in it, and a length that reaches exactly to the next
append boundary; at or past the total length it gives nothing. It never fails. -/
theorem C09_lookup (ix : Index) (h : BuiltIndex ix) (a : Nat) :
    (a < Index.total ix → ∃ n c l, Index.find ix a = .ok (some (n, a - c.start, l)) ∧ ix[n]? = some c ∧
      c.start ≤ a ∧ a < c.stop ∧ 0 < l ∧ a + l ≤ c.stop ∧ a + l ∈ globalBounds ix ∧
      ∀ b ∈ globalBounds ix, a < b → a + l ≤ b) ∧
    (Index.total ix ≤ a → Index.find ix a = .ok none) :=
  ⟨fun ha => (builtIndex_chain h).find_spec ha, fun ha => (builtIndex_chain h).find_none ha⟩

/-- **C09.** The same for the mapper of one mapping. -/
theorem C09_lookup_one (c : Chunk) (h : BuiltChunk c) (a : Nat) :
    (c.start ≤ a ∧ a < c.stop → ∃ l, c.find a = .ok (some (a - c.start, l)) ∧ 0 < l ∧
      a - c.start + l ∈ c.bounds ∧ ∀ b ∈ c.bounds, a - c.start < b → a - c.start + l ≤ b) ∧
    (¬ (c.start ≤ a ∧ a < c.stop) → c.find a = .ok none) := by
  refine ⟨fun ⟨h1, h2⟩ => ?_, Chunk.find_outside⟩
  rcases builtChunk_ok h with h | h
  · exfalso
    have : c.stop = c.start := by simp [Chunk.stop, h]
    omega
  · exact h.find_spec h1 h2

/-- A global end beyond the start of the mapping, and one that is refused. -/
example : (⟨10, [4]⟩ : Chunk).appendGlobal 17 = .ok ⟨10, [4, 7]⟩ ∧
    (⟨10, [4]⟩ : Chunk).appendGlobal 14 = .error .invalidOrder := by constructor <;> rfl

/-- Two mappings, two boundaries in the first. -/
example : BuiltIndex [⟨0, [3, 10]⟩, ⟨10, [4]⟩] := by
  refine .append (c := ⟨10, [4]⟩) (.append (c := ⟨0, [3, 10]⟩) .new ?_ rfl) ?_ rfl
  · exact .relative 10 (.relative 3 (.new 0) rfl) rfl
  · exact .global 14 (.new 10) rfl

example : Index.find [⟨0, [3, 10]⟩, ⟨10, [4]⟩] 3 = .ok (some (0, 3, 7)) := by rfl
example : Index.find [⟨0, [3, 10]⟩, ⟨10, [4]⟩] 12 = .ok (some (1, 2, 2)) := by rfl

end Verif.Props
