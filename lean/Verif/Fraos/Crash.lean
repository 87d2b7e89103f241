import Verif.Fraos.SpecLemmas

/-!
# Dying at any point

The process dies while `append_get_seqno` runs (or between calls, or while the handle is dropped). What
the next process finds is what the program had stored up to then. The store of a batch into the data
file is one region; the bytes of that region may be anything (some new, some old). The index is written
word by word (`copy_from_slice` of eight aligned bytes, seqno.rs:59-64), in order; a word is there or
not. `mmap.flush` (growable_mmap.rs:188-191) lies between the data store and the first index store.
-/

namespace Verif.Fraos

/-- What the data file may look like while `bs` is being appended to it, growable_mmap.rs:101-198. -/
inductive DataCut (p : Params) (g : GM) (bs : List UInt8) : Blob → Prop
  /-- nothing has happened yet -/
  | before {f : Blob} : g.file = some f → DataCut p g bs f
  /-- the file has been extended -/
  | extended {at_ : Nat} {g1 : GM} {f : Blob} :
      g.makeRoom p Faults.none bs.length = (.ok at_, g1) → g1.file = some f → DataCut p g bs f
  /-- the bytes of the batch are being stored -/
  | storing {at_ : Nat} {g1 : GM} {a : Active} {o : Nat} {f f' : Blob} :
      g.makeRoom p Faults.none bs.length = (.ok at_, g1) → g1.active = some a → a.mem = .file o →
      g1.file = some f → f'.len = f.len →
      (∀ i, i < o + at_ ∨ o + at_ + bs.length ≤ i → f'.get i = f.get i) → DataCut p g bs f'

/-- What the index file may look like while entries are being appended to it, with the number of
complete entries in it. -/
inductive IdxCut (p : Params) (g : GM) (new : List (Nat × Nat)) : Blob → Nat → Prop
  | before {f : Blob} : g.file = some f → IdxCut p g new f 0
  | extended {at_ : Nat} {g1 : GM} {f : Blob} :
      g.makeRoom p Faults.none (16 * new.length) = (.ok at_, g1) → g1.file = some f → IdxCut p g new f 0
  /-- the first `k` words have been stored -/
  | storing {at_ : Nat} {g1 g2 : GM} {a : Active} {f : Blob} {k : Nat} :
      g.makeRoom p Faults.none (16 * new.length) = (.ok at_, g1) → g1.active = some a →
      k ≤ 2 * new.length →
      g1.store a at_ ((entriesBytes new).take (8 * k)) = (.ok (), g2) → g2.file = some f →
      IdxCut p g new f (k / 2)

/-- The files a crash may leave while `batch` is being appended, and how many of its records are
complete in the index. -/
inductive Crash (p : Params) (db : DB) (batch : List (List UInt8)) : Blob → Blob → Nat → Prop
  /-- no effect yet, or no call running -/
  | idle {fd fi : Blob} : db.data.g.file = some fd → db.idx.g.file = some fi → Crash p db batch fd fi 0
  /-- the handle is being dropped: the index file has been cut, database.rs:164-169 -/
  | closing {fd fi : Blob} : db.data.g.file = some fd → db.drop.idx.g.file = some fi →
      Crash p db batch fd fi 0
  /-- in the data file -/
  | data {fd fi : Blob} : batch ≠ [] → (∀ r ∈ batch, r ≠ []) → DataCut p db.data.g batch.flatten fd →
      db.idx.g.file = some fi → Crash p db batch fd fi 0
  /-- in the index file, the data file is complete -/
  | index {d : Appender} {fd fi : Blob} {j : Nat} : batch ≠ [] → (∀ r ∈ batch, r ≠ []) →
      flatAppend p db.data Faults.none batch = (.ok (), d) → d.g.file = some fd →
      IdxCut p db.idx.g (entriesFrom db.data.size batch) fi j → Crash p db batch fd fi j

/-- States of databases on disk, with the records they should hold, over all histories of calls and
crashes. `used` bounds the bytes brought so far. -/
inductive Reached (p : Params) : DB → List (List UInt8) → Nat → Prop
  | fresh {db : DB} : fresh p true = .ok db → Reached p db [] 0
  | call {db : DB} {log : List (List UInt8)} {used : Nat} (op : Op) : Reached p db log used → op.small →
      Reached p (step p db op).2 (specStep true log op).2 (used + op.bytes)
  | crash {db db' : DB} {log batch : List (List UInt8)} {used j : Nat} {fd fi : Blob} :
      Reached p db log used → Crash p db batch fd fi j →
      DB.openDB p (some fd) (some fi) true = .ok db' →
      Reached p db' (log ++ batch.take j) (used + (batch.map List.length).sum)

/-! ### Lemmas -/

theorem DataCut.fileHas {p : Params} {g : GM} {C bs : List UInt8} (h : GMOK g C) (hr : Room g)
    (hbs : 0 < bs.length) {f : Blob} (hc : DataCut p g bs f) : FileHas f C := by
  cases hc with
  | before hf => exact h.file _ hf
  | extended hm hf =>
    rcases makeRoom_spec (p := p) h hr (ft := Faults.none) rfl hbs with ⟨a1, g1, e, hrd⟩ | ⟨e, g1, e1, _⟩
    · rw [hm] at e; cases e
      exact hrd.file.fileHas h.file _ hf
    · rw [hm] at e1; cases e1
  | @storing at_ g1 a o f0 _ hm ha hmem hf hl hout =>
    rcases makeRoom_spec (p := p) h hr (ft := Faults.none) rfl hbs with ⟨a1, g1', e, hrd⟩ | ⟨e, g1', e1, _⟩
    · rw [hm] at e; cases e
      have hF := hrd.file.fileHas h.file _ hf
      obtain ⟨a', ha', hst, _, _, hmo, _⟩ := hrd.ex
      rw [ha] at ha'; cases ha'
      rw [hmem] at hmo
      have := hmo.2
      refine ⟨by rw [hl]; exact hF.1, ?_⟩
      intro i hi
      rw [hout i (by omega)]
      exact hF.2 i hi
    · rw [hm] at e1; cases e1

theorem newSize_le (p : Params) (g : GM) (n : Nat) : g.newSize p n ≤ n + p.minMmap := by
  unfold GM.newSize
  cases g.file <;> simp

theorem IdxCut.spec {p : Params} (hp : 16 ∣ p.minMmap) {g : GM} {es new : List (Nat × Nat)}
    (h : GMOK g (entriesBytes es)) (hr : Room g)
    (ht : ∀ f, g.file = some f → TailZ f (16 * es.length) ∧ 16 ∣ f.len) (hnew : new ≠ [])
    {B : Nat} (hB : ∀ f, g.file = some f → f.len ≤ B)
    (hB2 : 16 * (es.length + new.length) + p.minMmap ≤ B)
    {f : Blob} {j : Nat} (hc : IdxCut p g new f j) :
    j ≤ new.length ∧ FileHas f (entriesBytes (es ++ new.take j)) ∧
      TailZ f (16 * (es ++ new.take j).length) ∧ 16 ∣ f.len ∧ f.len ≤ B := by
  have hpos : 0 < 16 * new.length := by have := List.length_pos_of_ne_nil hnew; omega
  have hk : 16 ∣ g.newSize p (16 * new.length) := newSize_dvd hp ⟨_, rfl⟩
  have hle := newSize_le p g (16 * new.length)
  cases hc with
  | before hf =>
    rw [List.take_zero, List.append_nil]
    exact ⟨by omega, h.file _ hf, (ht _ hf).1, (ht _ hf).2, hB _ hf⟩
  | extended hm hf =>
    rcases makeRoom_spec (p := p) h hr (ft := Faults.none) rfl hpos with ⟨a1, g1, e, hrd⟩ | ⟨e, g1, e1, _⟩
    · rw [hm] at e; cases e
      rw [List.take_zero, List.append_nil]
      have hs := hrd.file
      rw [entriesBytes_length] at hs
      have h1 := hs.tail ⟨_, rfl⟩ hk ht _ hf
      refine ⟨by omega, hrd.file.fileHas h.file _ hf, h1.1, h1.2, ?_⟩
      rcases hs.lenStep _ hf with h2 | ⟨b, h2, h3⟩
      · omega
      · have := hB b h2; omega
    · rw [hm] at e1; cases e1
  | @storing at_ g1 g2 a _ k hm ha hk2 hstore hf =>
    rcases makeRoom_spec (p := p) h hr (ft := Faults.none) rfl hpos with ⟨a1, g1', e, hrd⟩ | ⟨e, g1', e1, _⟩
    · rw [hm] at e; cases e
      obtain ⟨a', ha', hst, _, hlen, hmo, _⟩ := hrd.ex
      rw [ha] at ha'; cases ha'
      have hs := hrd.file
      rw [entriesBytes_length] at hs hst
      -- the file before the store
      cases hmem : a.mem with
      | anon b =>
        exfalso
        rw [hmem] at hmo
        have hnone : g1.file = none := by simpa using hmo.1
        unfold GM.store at hstore
        rw [hmem] at hstore
        simp only [Prod.mk.injEq, true_and] at hstore
        subst hstore
        simp only [hnone] at hf
        cases hf
      | file o =>
        rw [hmem] at hmo
        obtain ⟨f1, hf1⟩ := Option.isSome_iff_exists.mp hmo.1
        have ho : o + at_ = 16 * es.length := by have := hmo.2; omega
        have hfe : f = f1.write (16 * es.length) ((entriesBytes new).take (8 * k)) := by
          unfold GM.store at hstore
          rw [hmem] at hstore
          simp only at hstore
          split at hstore
          · simp only [Prod.mk.injEq, true_and] at hstore
            subst hstore
            simp only [hf1, Option.map_some, Option.some.injEq] at hf
            rw [← hf, ho]
          · simp at hstore
        have hF := hrd.file.fileHas h.file _ hf1
        have h1 := hs.tail ⟨_, rfl⟩ hk ht _ hf1
        have hroom := hrd.room a f1 ha hf1
        have hin : 16 * es.length + 16 * new.length ≤ f1.len := by omega
        have htl : ((entriesBytes new).take (8 * k)).length = 8 * k := by
          rw [List.length_take, entriesBytes_length]; omega
        have hjl : (new.take (k / 2)).length = k / 2 := by rw [List.length_take]; omega
        have hll : (es ++ new.take (k / 2)).length = es.length + k / 2 := by
          rw [List.length_append, hjl]
        refine ⟨by omega, ⟨?_, ?_⟩, ?_, ?_, ?_⟩
        · rw [hfe, entriesBytes_length, Blob.write_len]; omega
        · intro i hi
          rw [entriesBytes_length, hll] at hi
          rw [hfe, entriesBytes_append]
          by_cases hia : i < 16 * es.length
          · rw [Blob.write_get_lt hia, List.getElem?_append_left (by rw [entriesBytes_length]; exact hia)]
            exact hF.2 i (by rw [entriesBytes_length]; exact hia)
          · rw [List.getElem?_append_right (by rw [entriesBytes_length]; omega), entriesBytes_length]
            have hpre : (entriesBytes (new.take (k / 2)))[i - 16 * es.length]? =
                ((entriesBytes new).take (8 * k))[i - 16 * es.length]? := by
              have hsplit : entriesBytes new =
                  entriesBytes (new.take (k / 2)) ++ entriesBytes (new.drop (k / 2)) := by
                rw [← entriesBytes_append, List.take_append_drop]
              rw [List.getElem?_take_of_lt (by omega), hsplit,
                List.getElem?_append_left (by rw [entriesBytes_length, hjl]; omega)]
            rw [hpre]
            have hget : ((entriesBytes new).take (8 * k))[i - 16 * es.length]? =
                some (((entriesBytes new).take (8 * k))[i - 16 * es.length]'(by omega)) :=
              List.getElem?_eq_getElem (by omega)
            rw [hget]
            have := Blob.write_get_of_mem (b := f1) (o := 16 * es.length) hget (by omega)
            rw [show 16 * es.length + (i - 16 * es.length) = i by omega] at this
            rw [this]
        · rw [hfe, hll]
          intro i hi1 hi2 hi3
          rw [Blob.write_len] at hi2
          rw [Blob.write_get_ge (by rw [htl]; omega)]
          exact h1.1 i (by omega) hi2 hi3
        · rw [hfe, Blob.write_len]; exact h1.2
        · rw [hfe, Blob.write_len]
          rcases hs.lenStep _ hf1 with h2 | ⟨b, h2, h3⟩
          · omega
          · have := hB b h2; omega
    · rw [hm] at e1; cases e1

theorem Recs.takeLog {C : List UInt8} {bs : List Nat} {es : List (Nat × Nat)} {log : List (List UInt8)}
    (h : Recs C bs es log) (n : Nat) : Recs C bs (es.take n) (log.take n) :=
  ⟨List.forall₂_take n h.each, h.order.sublist (List.take_sublist n es)⟩

/-- Whatever a crash leaves is a directory that holds the acknowledged records and a prefix of the
batch. -/
theorem Crash.disk {p : Params} (hp : 16 ∣ p.minMmap) (hm : p.minMmap < 2 ^ 62) {db : DB}
    {log batch : List (List UInt8)} {used : Nat} (h : Good p true db log used)
    (hfit : used + (batch.map List.length).sum < 2 ^ 59) {fd fi : Blob} {j : Nat}
    (hc : Crash p db batch fd fi j) :
    DiskOK fd fi (log ++ batch.take j) (used + (batch.map List.length).sum) ∧
      fi.len ≤ 16 * (used + (batch.map List.length).sum) + p.minMmap := by
  obtain ⟨es, C, hinv, hC⟩ := h.ex
  rw [← List.length_flatten] at hfit ⊢
  have hcount := hinv.recs.count_le
  cases hc with
  | idle hd hi =>
    rw [List.take_zero, List.append_nil]
    have := h.idxLen _ hi
    exact ⟨⟨⟨es, C, hinv.idxOK.file _ hi, (hinv.tail _ hi).1, (hinv.tail _ hi).2, hinv.dataOK.file _ hd,
      hinv.recs.bounds (by simp), hinv.fits, by omega⟩, by omega⟩, by omega⟩
  | closing hd hi =>
    rw [List.take_zero, List.append_nil]
    obtain ⟨f0, hf0⟩ := Option.isSome_iff_exists.mp h.mode
    obtain ⟨_, e2, hdisk⟩ := hinv.disk_closed hd hf0 h.wd h.wi
    rw [e2] at hi; cases hi
    obtain ⟨es', C', h1, h2, h3, _, _, _, _⟩ := hdisk.ex
    refine ⟨⟨⟨es, C, ?_, ?_, ?_, hinv.dataOK.file _ hd, hinv.recs.bounds (by simp), hinv.fits, by omega⟩, ?_⟩, ?_⟩
    · exact (hinv.idxOK.file _ hf0).setLen (by simp)
    · exact (hinv.tail _ hf0).1.setLen _
    · simp
    · simp only [Blob.setLen_len]; omega
    · simp only [Blob.setLen_len]; omega
  | data hb hne hcut hi =>
    rw [List.take_zero, List.append_nil]
    have hpos : 0 < batch.flatten.length := by
      cases batch with
      | nil => exact absurd rfl hb
      | cons r rs =>
        have := List.length_pos_of_ne_nil (hne r (by simp))
        simp only [List.flatten_cons, List.length_append]; omega
    have := h.idxLen _ hi
    exact ⟨⟨⟨es, C, hinv.idxOK.file _ hi, (hinv.tail _ hi).1, (hinv.tail _ hi).2,
      hcut.fileHas hinv.dataOK h.room.2 hpos, hinv.recs.bounds (by simp), hinv.fits, by omega⟩, by omega⟩,
      by omega⟩
  | @index d _ _ _ hb hne hflat hd hcut =>
    rcases flatAppend_spec (p := p) hinv.dataOK h.room.2 Faults.none_early hb hne with
      ⟨g1, e, hok, hroom, hbd, hw, hmode⟩ | ⟨er, g1, e, hu, he⟩
    · rw [hflat] at e
      simp only [Prod.mk.injEq, true_and] at e
      subst e
      have hrn : Recs (C ++ batch.flatten) [] (entriesFrom C.length batch) batch :=
        entriesFrom_recs C batch hne (by simp)
      have hro : Recs (C ++ batch.flatten) [] es log := hinv.recs.mono _ (by simp)
      have hnew : entriesFrom db.data.size batch ≠ [] := by
        intro h0
        have := entriesFrom_length db.data.size batch
        rw [h0] at this
        have := List.length_pos_of_ne_nil hb
        simp_all
      have hcn := (hro.append hrn (fun e he => (hinv.recs.mem he).2)
        (fun e he => (entriesFrom_ge he).1)).count_le
      rw [List.length_append, List.length_append, entriesFrom_length] at hcn
      rw [hinv.dataSize] at hcut hnew
      obtain ⟨hj, hF, hT, h16, hlen⟩ := hcut.spec hp hinv.idxOK h.room.1 hinv.tail hnew
        (B := 16 * (used + batch.flatten.length) + p.minMmap)
        (fun f hf => by have := h.idxLen f hf; omega) (by rw [entriesFrom_length]; omega)
      refine ⟨⟨⟨_, C ++ batch.flatten, hF, hT, h16, hok.file _ hd, ?_, ?_, ?_⟩, by omega⟩, hlen⟩
      · exact hro.append (hrn.takeLog j) (fun e he => (hinv.recs.mem he).2)
          (fun e he => (entriesFrom_ge (List.mem_of_mem_take he)).1)
      · rw [List.length_append]; omega
      · rw [List.length_append]; omega
    · rw [hflat] at e; cases e

theorem Reached.good {p : Params} (hp : 16 ∣ p.minMmap) (hm : p.minMmap < 2 ^ 62) {db : DB}
    {log : List (List UInt8)} {used : Nat} (h : Reached p db log used) (hfit : used < 2 ^ 59) :
    Good p true db log used := by
  induction h with
  | fresh h =>
    obtain ⟨db', e, hg⟩ := fresh_good p true
    rw [h] at e; cases e
    exact hg
  | call op _ hs ih =>
    exact (step_good hp (ih (by omega)) hs (by omega)).2
  | @crash db db' log batch used j fd fi _ hc ho ih =>
    obtain ⟨hdisk, hlen⟩ := hc.disk hp hm (ih (by omega)) hfit
    obtain ⟨db1, es, C, e, hinv, hr, hle, hwd, hwi, hfd, hfi⟩ := open_spec (p := p) hdisk true
    rw [ho] at e; cases e
    exact ⟨⟨es, C, hinv, hle⟩, hr, hwd, hwi, by simp [hfi], fun f hf => by
      rw [hfi] at hf; cases hf; exact hlen⟩

end Verif.Fraos
