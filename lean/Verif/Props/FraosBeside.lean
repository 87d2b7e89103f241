import Verif.Fraos.BesideLemmas
import Verif.Props.FraosCrash

/-!
# C107: a database opened read-only while another process writes to it

`Watched p m` (`Verif/Fraos/Beside.lean`) says that `m 0, m 1, …` are moments, in order, of processes that
append to a directory, close it, open it again and die, one after the other. `(m t).recs` are the records
complete in the index at moment `t`: those of all calls answered before, and the first `j` of the running
call. `openB` is the opening by the reader, `getB` a reading; each load sees the files of one moment. The
opening starts at moment 0.
-/

namespace Verif.Props

open Verif.Fraos

/-- **C107.** When the opening ends with a handle, the handle shows every record that was there when the
opening began, and none that came after it ended; whatever the writer does from then on — appending,
closing, opening, dying — each of them reads as the writer holds it, and nothing else is shown. -/
theorem C107_shows_partial (p : Params) (hp : 16 ∣ p.minMmap) (hm : p.minMmap < 2 ^ 62) (m : Nat → Moment)
    (hw : Watched p m) (fuel k : Nat) (ro : DB)
    (ho : openB p (fun t => (m t).fi) (fun t => (m t).fd) fuel = .ok (ro, k)) :
    ∃ n, (m 0).recs.length ≤ n ∧ n ≤ (m k).recs.length ∧ ro.len = n ∧
      ∀ t t1 t2 i, k ≤ t → t ≤ t1 → t1 ≤ t2 → i < 2 ^ 60 →
        getB p ro (m t).fi (m t1).fi (m t2).fd i = .ok (if i < n then (m t).recs[i]? else none) := by
  obtain ⟨es, hg⟩ := hw.grows hp hm
  obtain ⟨n, j, rfl, h0, hh⟩ := openB_ok hg ho
  have e0 := (hg.stage 0).length
  have ej := (hg.stage j).length
  have e3 := (hg.stage (j + 3)).length
  have hm3 := hg.mono (s := j) (t := j + 3) (by omega)
  have hle := hh.le
  have e0' : (es 0).length = (m 0).recs.length := e0
  have ej' : (es j).length = (m j).recs.length := ej
  have e3' : (es (j + 3)).length = (m (j + 3)).recs.length := e3
  refine ⟨n, by omega, by omega, ?_, ?_⟩
  · obtain ⟨f, hf⟩ := hh.idx
    unfold DB.len
    rw [hf]
    unfold idxLen flat
    simp
  · intro t t1 t2 i ht ht1 ht2 hi
    have hget := hh.get (p := p) hg (t := t) (t1 := t1) (t2 := t2) (by omega) (by omega) (by omega) hi
    rw [hget]
    by_cases hin : i < n
    · rw [if_pos hin, List.getElem?_take_of_lt hin]
      have hlt : i < (m j).recs.length := by omega
      have hx := List.getElem?_eq_getElem hlt
      rw [hx, prefix_get (hg.recs j t (by omega)) hx]
    · rw [if_neg hin, List.getElem?_eq_none (by simp; omega)]

/-- **C107.** The records of the writer only grow; so what the reader shows is a beginning of them. -/
theorem C107_grows (p : Params) (hp : 16 ∣ p.minMmap) (hm : p.minMmap < 2 ^ 62) (m : Nat → Moment)
    (hw : Watched p m) (s t : Nat) (hst : s ≤ t) : (m s).recs <+: (m t).recs := by
  obtain ⟨es, hg⟩ := hw.grows hp hm
  exact hg.recs s t hst

/-- **C107.** The opening ends with a handle if, while it lasts, no index entry is completed and the index
file is not cut; the writer may store data and extend the files. -/
theorem C107_opens_partial (p : Params) (hp : 16 ∣ p.minMmap) (hm : p.minMmap < 2 ^ 62) (m : Nat → Moment)
    (hw : Watched p m) (hidle : ∀ t, (m t).recs.length = (m 0).recs.length)
    (hcut : ∀ t, (m 0).fi.len ≤ (m t).fi.len) (fuel : Nat) (hfuel : (m 0).fi.len < fuel) :
    ∃ ro k, openB p (fun t => (m t).fi) (fun t => (m t).fd) fuel = .ok (ro, k) := by
  obtain ⟨es, hg⟩ := hw.grows hp hm
  have hN : ∀ t, (es t).length = (es 0).length := by
    intro t
    rw [(hg.stage t).length, (hg.stage 0).length]
    exact hidle t
  obtain ⟨⟨a, k⟩, e⟩ := idxOpenB_quiet (p := p) hg hN hcut hfuel
  obtain ⟨n, f, ha, h1, h2⟩ := idxOpenB_ok hg e
  obtain ⟨ro, e', _⟩ := openB_after hg e ha h2
  exact ⟨ro, _, e'⟩

/-- **C107.** The reader never changes a file: appends are refused and leave the handle and the files as
they are, and so does closing. -/
theorem C107_harmless (p : Params) (hp : 16 ∣ p.minMmap) (hm : p.minMmap < 2 ^ 62) (m : Nat → Moment)
    (hw : Watched p m) (fuel k : Nat) (ro : DB)
    (ho : openB p (fun t => (m t).fi) (fun t => (m t).fd) fuel = .ok (ro, k)) (fd fi : Blob) (a b : Faults)
    (batch : List (List UInt8)) :
    (DB.append p ⟨ro.data.over fd, ro.idx.over fi⟩ a b batch).2 = ⟨ro.data.over fd, ro.idx.over fi⟩ ∧
    (DB.append p ⟨ro.data.over fd, ro.idx.over fi⟩ a b batch).1 =
      (if batch = [] then .ok none else if [] ∈ batch then .error .emptyRecord else .error .extend) ∧
    (DB.drop ⟨ro.data.over fd, ro.idx.over fi⟩).data.g.file = some fd ∧
    (DB.drop ⟨ro.data.over fd, ro.idx.over fi⟩).idx.g.file = some fi := by
  obtain ⟨es, hg⟩ := hw.grows hp hm
  obtain ⟨n, j, _, _, hh⟩ := openB_ok hg ho
  obtain ⟨f0, hidx⟩ := hh.idx
  obtain ⟨ex, d0, hdata, _⟩ := hh.data
  have key : DB.append p ⟨ro.data.over fd, ro.idx.over fi⟩ a b batch =
      ((if batch = [] then .ok none else if [] ∈ batch then .error .emptyRecord else .error .extend),
        ⟨ro.data.over fd, ro.idx.over fi⟩) := by
    by_cases hb : batch = []
    · subst hb; rw [if_pos rfl]; rfl
    · rw [if_neg hb]
      by_cases he : [] ∈ batch
      · rw [if_pos he, append_rejects _ _ _ he]
      · rw [if_neg he]
        have hne : ∀ r ∈ batch, r ≠ [] := fun r hr hc => he (hc ▸ hr)
        have h1 : batch.isEmpty = false := by
          cases batch with
          | nil => exact absurd rfl hb
          | cons => rfl
        have hsum : (batch.map List.length).sum ≠ 0 := by
          cases batch with
          | nil => exact absurd rfl hb
          | cons r rs =>
            have := List.length_pos_of_ne_nil (hne r (by simp))
            simp only [List.map_cons, List.sum_cons]; omega
        unfold DB.append flatAppend
        rw [hdata, flat_over]
        simp only [h1, any_isEmpty_false hne]
        rw [flat_append p ex fd a hsum]
        simp
  refine ⟨by rw [key], by rw [key], ?_, ?_⟩
  · unfold DB.drop
    simp only
    rw [hdata, flat_over, flat_shrink, flat_file]
  · unfold DB.drop
    simp only
    rw [hidx, flat_over, flat_shrink, flat_file]

/-! ### The opening may fail -/

/-- A writer at rest in one state up to moment `T`, in the state after one more call from then on. -/
def turning (p : Params) (db : DB) (log : List (List UInt8)) (used : Nat) (op : Op) (T t : Nat) : Moment :=
  if t < T then ⟨db, log, used, op, db.data.g.fileBlob, db.idx.g.fileBlob, 0⟩
  else ⟨(step p db op).2, (specStep true log op).2, used + op.bytes, .len,
    (step p db op).2.data.g.fileBlob, (step p db op).2.idx.g.fileBlob, 0⟩

theorem some_blob {g : GM} (h : g.file.isSome = true) : g.file = some g.fileBlob := by
  obtain ⟨f, hf⟩ := Option.isSome_iff_exists.mp h
  unfold GM.fileBlob
  rw [hf]; rfl

theorem turning_watched {p : Params} {db : DB} {log : List (List UInt8)} {used : Nat} {op : Op} {T : Nat}
    (hr : Reached p db log used) (hd : db.data.g.file.isSome = true) (hi : db.idx.g.file.isSome = true)
    (hd' : (step p db op).2.data.g.file.isSome = true) (hi' : (step p db op).2.idx.g.file.isSome = true)
    (hs : op.small) (hT : 0 < T) (hb : used + op.bytes < 2 ^ 59) :
    Watched p (turning p db log used op T) := by
  have hstep : Next p ⟨db, log, used, op, db.data.g.fileBlob, db.idx.g.fileBlob, 0⟩
      ⟨(step p db op).2, (specStep true log op).2, used + op.bytes, .len,
        (step p db op).2.data.g.fileBlob, (step p db op).2.idx.g.fileBlob, 0⟩ :=
    .ends hs (some_blob hd') (some_blob hi')
  have h0 : turning p db log used op T 0 = ⟨db, log, used, op, db.data.g.fileBlob, db.idx.g.fileBlob, 0⟩ := by
    unfold turning; rw [if_pos hT]
  refine ⟨?_, ?_, ?_, ?_⟩
  · rw [h0]; exact hr
  · rw [h0]; exact .idle (some_blob hd) (some_blob hi)
  · intro t
    by_cases h1 : t + 1 < T
    · unfold turning; rw [if_pos h1, if_pos (by omega)]
    · by_cases h2 : t < T
      · unfold turning; rw [if_pos h2, if_neg h1]
        exact .single ⟨hstep, by simpa [Moment.bytes, Op.batch] using hb⟩
      · unfold turning; rw [if_neg h2, if_neg h1]
  · rw [h0]
    simpa [Moment.bytes, batch_bytes] using hb

/-- A new database. -/
def newDB : DB := ⟨⟨⟨some Blob.empty, true, [], [], none⟩, 0⟩, ⟨⟨some Blob.empty, true, [], [], none⟩, 0⟩⟩

/-- It holds two records. -/
def twoDB (p : Params) : DB := (step p newDB (.append [[1], [2]])).2

theorem two_reached (p : Params) : Reached p (twoDB p) [[1], [2]] 2 :=
  .call (.append [[1], [2]]) (.fresh rfl) trivial

/-- The loop never ends. -/
def Endless (at_ : Nat → Nat → Except Err Nat) (len k start stop : Nat) : Prop :=
  ∀ fuel, huntLoop at_ len fuel k start stop = .error .stuck

theorem Endless.low {at_ : Nat → Nat → Except Err Nat} {len k start stop a : Nat}
    (h : Endless at_ len (k + 4) start ((start + stop) / 2)) (h0 : start < len - 1)
    (h1 : at_ k (start + 1) = .ok (a + 1)) (h2 : at_ (k + 2) ((start + stop) / 2) = .ok 0) :
    Endless at_ len k start stop := by
  intro fuel
  cases fuel with
  | zero => rfl
  | succ fuel =>
    unfold huntLoop
    rw [if_pos h0, h1]
    simp only
    rw [h2]
    exact h fuel

theorem Endless.high {at_ : Nat → Nat → Except Err Nat} {len k start stop a b : Nat}
    (h : Endless at_ len (k + 4) ((start + stop) / 2) stop) (h0 : start < len - 1)
    (h1 : at_ k (start + 1) = .ok (a + 1)) (h2 : at_ (k + 2) ((start + stop) / 2) = .ok (b + 1)) :
    Endless at_ len k start stop := by
  intro fuel
  cases fuel with
  | zero => rfl
  | succ fuel =>
    unfold huntLoop
    rw [if_pos h0, h1]
    simp only
    rw [h2]
    exact h fuel

/-- The index files of the witness below. -/
def hangIdx (t : Nat) : Blob := (turning Params.code (twoDB Params.code) [[1], [2]] 2 (.append [[3]]) 66 t).fi

def hangAt : Nat → Nat → Except Err Nat := lengthB Params.code (flat (16 * 32768) (hangIdx 0)) hangIdx

instance : DecidableEq (Except Err Nat) := fun a b =>
  match a, b with
  | .ok x, .ok y => if h : x = y then .isTrue (by rw [h]) else .isFalse (fun e => h (Except.ok.inj e))
  | .error x, .error y => if h : x = y then .isTrue (by rw [h]) else .isFalse (fun e => h (Except.error.inj e))
  | .ok _, .error _ => .isFalse (fun e => by cases e)
  | .error _, .ok _ => .isFalse (fun e => by cases e)

theorem hang_late {k : Nat} (hk : 66 ≤ k) (i : Nat) : hangAt k i = hangAt 66 i := by
  have h1 : ∀ t, 66 ≤ t → hangIdx t = hangIdx 66 := by
    intro t ht
    unfold hangIdx turning
    rw [if_neg (by omega), if_neg (by omega)]
  unfold hangAt lengthB
  rw [h1 k hk, h1 (k + 1) (by omega), h1 (66 + 1) (by omega)]

theorem hang_end {k : Nat} (hk : 66 ≤ k) : Endless hangAt 32768 k 1 2 := by
  have e2 : hangAt 66 2 = .ok 1 := by decide +kernel
  have e1 : hangAt 66 1 = .ok 1 := by decide +kernel
  intro fuel
  induction fuel generalizing k with
  | zero => rfl
  | succ fuel ih =>
    unfold huntLoop
    rw [if_pos (by norm_num), hang_late hk, e2]
    simp only
    rw [show (1 + 2) / 2 = 1 from rfl, hang_late (by omega), e1]
    exact ih (by omega)

theorem hang_loop : Endless hangAt 32768 7 0 32768 := by
  have h := Endless.high (at_ := hangAt) (len := 32768) (k := 63) (start := 0) (stop := 2) (a := 0) (b := 0)
    (hang_end (by decide)) (by decide) (by decide +kernel) (by decide +kernel)
  have go : ∀ k s, Endless hangAt 32768 (k + 4) 0 s → hangAt k 1 = .ok 1 → hangAt (k + 2) s = .ok 0 →
      Endless hangAt 32768 k 0 (2 * s) := by
    intro k s h1 h2 h3
    refine Endless.low (a := 0) ?_ (by norm_num) h2 ?_
    · rw [show (0 + 2 * s) / 2 = s by omega]; exact h1
    · rw [show (0 + 2 * s) / 2 = s by omega]; exact h3
  have h := go 59 2 h (by decide +kernel) (by decide +kernel)
  have h := go 55 4 h (by decide +kernel) (by decide +kernel)
  have h := go 51 8 h (by decide +kernel) (by decide +kernel)
  have h := go 47 16 h (by decide +kernel) (by decide +kernel)
  have h := go 43 32 h (by decide +kernel) (by decide +kernel)
  have h := go 39 64 h (by decide +kernel) (by decide +kernel)
  have h := go 35 128 h (by decide +kernel) (by decide +kernel)
  have h := go 31 256 h (by decide +kernel) (by decide +kernel)
  have h := go 27 512 h (by decide +kernel) (by decide +kernel)
  have h := go 23 1024 h (by decide +kernel) (by decide +kernel)
  have h := go 19 2048 h (by decide +kernel) (by decide +kernel)
  have h := go 15 4096 h (by decide +kernel) (by decide +kernel)
  have h := go 11 8192 h (by decide +kernel) (by decide +kernel)
  exact go 7 16384 h (by decide +kernel) (by decide +kernel)

/-- **C107, refuted.** With the constants of the code: a writer that holds two records appends a third one
while a reader looks for the end of the index. The search never ends, however long the writer leaves the
files alone after that. -/
theorem C107_hangs_false : ∃ m : Nat → Moment, Watched Params.code m ∧
    (m 0).recs = [[1], [2]] ∧ (∀ t, 66 ≤ t → m t = m 66) ∧
    ∀ fuel, openB Params.code (fun t => (m t).fi) (fun t => (m t).fd) fuel = .error .stuck := by
  refine ⟨turning Params.code (twoDB Params.code) [[1], [2]] 2 (.append [[3]]) 66,
    turning_watched (two_reached _) rfl rfl rfl rfl trivial (by norm_num) (by decide), rfl, ?_, ?_⟩
  · intro t ht
    unfold turning
    rw [if_neg (by omega), if_neg (by omega)]
  · intro fuel
    have hlen : (hangIdx 0).len = 16 * 32768 := by decide +kernel
    have hnew : Appender.new (some (hangIdx 0)) false none = .ok (flat (16 * 32768) (hangIdx 0)) := by
      rw [new_flat _ _ (by simp), Option.getD_none, hlen]
    have hl : idxLen (flat (16 * 32768) (hangIdx 0)) = 32768 := rfl
    have h0 : hangAt 3 0 = .ok 1 := by decide +kernel
    have h1 : hangAt 5 32767 = .ok 0 := by decide +kernel
    have h2 : hangAt 1 32767 = .ok 0 := by decide +kernel
    have hhunt : hunt hangAt 32768 fuel 3 = .error .stuck := by
      unfold hunt
      rw [h0]
      simp only
      rw [if_neg (by norm_num), show 32768 - 1 = 32767 from rfl, h1]
      simp only
      rw [if_neg (by norm_num)]
      exact hang_loop fuel
    have hidx : idxOpenB Params.code hangIdx fuel = .error .stuck := by
      unfold idxOpenB
      rw [hnew]
      simp only [hl]
      rw [if_neg (by norm_num), show 32768 - 1 = 32767 from rfl]
      unfold hangAt lengthB at h2
      cases he : getEntryB Params.code (flat (16 * 32768) (hangIdx 0)) (hangIdx 1) (hangIdx 2) 32767 with
      | error e => rw [show 1 + 1 = 2 from rfl, he] at h2; cases h2
      | ok r =>
        rw [show 1 + 1 = 2 from rfl, he] at h2
        cases r with
        | none => cases h2
        | some e =>
          obtain ⟨o, l⟩ := e
          simp only [Except.ok.injEq] at h2
          subst h2
          simp only [if_true]
          rw [show lengthB Params.code (flat (16 * 32768) (hangIdx 0)) hangIdx = hangAt from rfl, hhunt]
    unfold openB
    rw [show (fun t => (turning Params.code (twoDB Params.code) [[1], [2]] 2 (.append [[3]]) 66 t).fi) = hangIdx
      from rfl, hidx]

/-- **C107, refuted.** With the constants of the code: a writer that holds two records closes the database
right after a reader has mapped the index. The reader then loads from a page that the file no longer has:
a bus error. -/
theorem C107_fault_false : ∃ m : Nat → Moment, Watched Params.code m ∧
    (m 0).recs = [[1], [2]] ∧ (∀ t, 1 ≤ t → m t = m 1) ∧
    ∀ fuel, openB Params.code (fun t => (m t).fi) (fun t => (m t).fd) fuel = .error .fault := by
  refine ⟨turning Params.code (twoDB Params.code) [[1], [2]] 2 .reopen 1,
    turning_watched (two_reached _) rfl rfl rfl rfl trivial (by norm_num) (by decide), rfl, ?_, ?_⟩
  · intro t ht
    unfold turning
    rw [if_neg (by omega), if_neg (by omega)]
  · intro fuel
    rfl

/-- **C107, refuted.** The opening may also call a sound index damaged: the writer stores the entry that
was the last free one of the index file while the reader looks for the end. Here files grow by 64 bytes. -/
theorem C107_damaged_false : ∃ (p : Params) (m : Nat → Moment), 16 ∣ p.minMmap ∧ Watched p m ∧
    (m 0).recs = [[1], [2], [3]] ∧ (∀ t, 12 ≤ t → m t = m 12) ∧
    openB p (fun t => (m t).fi) (fun t => (m t).fd) 100 = .error .indexDamaged := by
  refine ⟨{ Params.code with minMmap := 64 },
    turning { Params.code with minMmap := 64 }
      (step { Params.code with minMmap := 64 } newDB (.append [[1], [2], [3]])).2 [[1], [2], [3]] 3 (.append [[4]]) 12,
    by decide, turning_watched (.call (.append [[1], [2], [3]]) (.fresh rfl) trivial) rfl rfl rfl rfl trivial
      (by norm_num) (by decide), rfl, ?_, ?_⟩
  · intro t ht
    unfold turning
    rw [if_neg (by omega), if_neg (by omega)]
  · rfl

/-! ### Cases that meet the hypotheses -/

/-- Small files, for the samples. -/
def small64 : Params := { Params.code with minMmap := 64 }

/-- The writer appends a third record during the opening, and the reader shows it. -/
example : ∃ m : Nat → Moment, Watched small64 m ∧ (m 0).recs.length = 2 ∧
    ∃ ro k, openB small64 (fun t => (m t).fi) (fun t => (m t).fd) 100 = .ok (ro, k) ∧ ro.len = 3 :=
  ⟨turning small64 (twoDB small64) [[1], [2]] 2 (.append [[3]]) 5,
    turning_watched (two_reached _) rfl rfl rfl rfl trivial (by decide) (by decide), rfl, _, _, rfl, rfl⟩

/-- The writer closes the database during the opening, within a page, and the reader goes on. -/
example : ∃ m : Nat → Moment, Watched small64 m ∧ (m 5).fi.len < (m 0).fi.len ∧
    ∃ ro k, openB small64 (fun t => (m t).fi) (fun t => (m t).fd) 100 = .ok (ro, k) ∧ ro.len = 2 :=
  ⟨turning small64 (twoDB small64) [[1], [2]] 2 .reopen 5,
    turning_watched (two_reached _) rfl rfl rfl rfl trivial (by decide) (by decide), by decide +kernel, _, _, rfl, rfl⟩

/-- A writer at rest with two records and a padded index, as `C107_opens_partial` asks. -/
example : ∃ m : Nat → Moment, Watched Params.code m ∧ (m 0).fi.len = 524288 ∧
    (∀ t, (m t).recs.length = (m 0).recs.length) ∧ ∀ t, (m 0).fi.len ≤ (m t).fi.len := by
  refine ⟨turning Params.code (twoDB Params.code) [[1], [2]] 2 .len 1,
    turning_watched (two_reached _) rfl rfl rfl rfl trivial (by decide) (by decide), by decide +kernel, ?_, ?_⟩
  · intro t
    unfold turning
    split <;> rfl
  · intro t
    have h : ∀ t, (turning Params.code (twoDB Params.code) [[1], [2]] 2 .len 1 t).fi =
        (twoDB Params.code).idx.g.fileBlob := by
      intro t
      unfold turning
      split <;> rfl
    rw [h, h]

/-- A writer that has stored three of the four words of two index entries: one record is there. -/
example : ∃ m m' : Moment, Next { Params.code with minMmap := 32 } m m' ∧ m.recs = [] ∧ m'.recs = [[1]] :=
  ⟨⟨newDB, [], 0, .append [[1], [2, 3]], Blob.empty, Blob.empty, 0⟩,
    ⟨newDB, [], 0, .append [[1], [2, 3]], _, _, 1⟩,
    .on (.index (by decide) (by decide) rfl rfl
      (.storing (k := 3) rfl rfl (by decide) (store_file rfl (by decide)) rfl)) (by decide), rfl, rfl⟩

end Verif.Props
