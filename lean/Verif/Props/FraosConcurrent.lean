import Verif.Fraos.ConcurrentSpec
import Verif.Props.FraosHandles

/-!
# C08: concurrent readers and writers

`Runs p sys n onDisk tr s`: `n` threads sharing a fresh database can produce the calls and answers `tr` and
reach `s`, at the granularity of lock sections and atomic accesses (`CStep`, `Verif/Fraos/Concurrent.lean`). With `sys` the
system may now and then refuse to extend or to map a file.
The specification `AStep` in the same file has the same calls on a list of records.
-/

namespace Verif.Props

open Verif.Fraos

/-- The code, run by `n` threads from a fresh database, has the trace `tr` and ends in `s`. With `sys` the system may refuse to
extend or to map files. -/
def Runs (p : Params) (sys : Bool) (n : Nat) (onDisk : Bool) (tr : List (Ev n)) (s : CState n) : Prop :=
  ∃ db, fresh p onDisk = .ok db ∧ Exec (CStep p sys) (cinit n db) tr s

/-- Limits of the model: less than `2^60` bytes and numbers. -/
def Fits {n : Nat} (tr : List (Ev n)) : Prop :=
  (∀ e ∈ tr, e.small) ∧ (tr.map Ev.bytes).sum < 2 ^ 60

/-- **C08.** Whatever the schedule, after any sequential history, the answers of the code are answers of
the specification, where every append puts its whole batch at the end of the log in one step and every
read looks at the log once. -/
theorem C08_refines (p : Params) (sys : Bool) (hp : 16 ∣ p.minMmap) (onDisk : Bool) (ops : List Op) (db : DB)
    (hdb : fresh p onDisk = .ok db) (n : Nat) (tr : List (Ev n)) (s : CState n)
    (hx : Exec (CStep p sys) (cinit n (after p db ops)) tr s)
    (hsmall : (∀ op ∈ ops, op.small) ∧ ∀ e ∈ tr, e.small)
    (hbytes : bytesOf ops + (tr.map Ev.bytes).sum < 2 ^ 60) :
    ∃ a, Exec (AStep sys) ⟨specAfter onDisk [] ops, (specAfter onDisk [] ops).length, fun _ => .idle⟩ tr a := by
  obtain ⟨db', e, hg⟩ := fresh_good p onDisk
  rw [hdb] at e; cases e
  obtain ⟨es, C, hs⟩ := sim_init (n := n) (run_good hp ops hg hsmall.1 (by omega)).2
  obtain ⟨a, _, _, ha, _⟩ := sim_exec hp hs hx hsmall.2 (by omega)
  exact ⟨a, ha⟩

theorem runs_spec {p : Params} {sys : Bool} (hp : 16 ∣ p.minMmap) {n : Nat} {onDisk : Bool} {tr : List (Ev n)}
    {s : CState n} (hx : Runs p sys n onDisk tr s) (hf : Fits tr) :
    ∃ a es C B, Exec (AStep sys) (ainit n) tr a ∧ Sim B s a es C ∧ B < 2 ^ 60 := by
  obtain ⟨db, hdb, hx⟩ := hx
  obtain ⟨db', e, hg⟩ := fresh_good p onDisk
  rw [hdb] at e; cases e
  obtain ⟨es, C, hs⟩ := sim_init (n := n) hg
  have hfb := hf.2
  obtain ⟨a, es', C', ha, hs'⟩ := sim_exec hp hs hx hf.1 (by omega)
  exact ⟨a, es', C', _, ha, hs', by omega⟩

/-- **C08.** There is one list of records that explains all answers: an acknowledged append occupies in it
exactly the numbers from the one returned; every record read is the one of that number; no call fails,
except appends with an empty record and appends for which the system refuses to extend or to map a file. -/
theorem C08_one_log (p : Params) (sys : Bool) (hp : 16 ∣ p.minMmap) (n : Nat) (onDisk : Bool) (tr : List (Ev n))
    (s : CState n) (hx : Runs p sys n onDisk tr s) (hf : Fits tr) :
    ∃ log : List (List UInt8), ∀ t c r, Ev.ret t c r ∈ tr →
      match c, r with
      | .append b, .seqno (.ok (some k)) =>
        b ≠ [] ∧ [] ∉ b ∧ k + b.length ≤ log.length ∧ ∀ j, j < b.length → log[k + j]? = b[j]?
      | .append b, .seqno (.ok none) => b = []
      | .append b, .seqno (.error e) => ([] ∈ b ∧ e = .emptyRecord) ∨
        (sys = true ∧ b ≠ [] ∧ [] ∉ b ∧ (e = .extend ∨ e = .mmap))
      | .get i, .record (.ok (some r)) => log[i]? = some r
      | .get _, .record (.ok none) => True
      | .len, .number m => m ≤ log.length
      | _, _ => False := by
  obtain ⟨a, _, _, _, ha, _⟩ := runs_spec hp hx hf
  have hi := AInv.exec ha
  refine ⟨a.log, ?_⟩
  intro t c r hm
  have h1 := hi.rets t c r hm
  have := hi.le
  unfold Fraos.Fact at h1
  split at h1
  · exact ⟨h1.1, h1.2.1, by omega, h1.2.2.2⟩
  · exact h1
  · exact h1
  · exact h1
  · trivial
  · exact le_trans h1 this
  · rename_i h2 h3 h4 h5 h6 h7
    exact h1.elim

/-- **C08.** Blocks of numbers given to different appends have nothing in common (`acks` lists the blocks
`(first number, batch)` of the acknowledged appends of a trace). -/
theorem C08_blocks_disjoint (p : Params) (sys : Bool) (hp : 16 ∣ p.minMmap) (n : Nat) (onDisk : Bool) (tr : List (Ev n))
    (s : CState n) (hx : Runs p sys n onDisk tr s) (hf : Fits tr) :
    (acks tr).Pairwise (fun x y => x.1 + x.2.length ≤ y.1 ∨ y.1 + y.2.length ≤ x.1) := by
  obtain ⟨a, _, _, _, ha, _⟩ := runs_spec hp hx hf
  exact (AInv.exec ha).disj

/-- **C08.** Once all calls have been answered, the database holds exactly the records of the
acknowledged appends, each batch contiguous from the number returned. -/
theorem C08_settled (p : Params) (sys : Bool) (hp : 16 ∣ p.minMmap) (n : Nat) (onDisk : Bool) (tr : List (Ev n))
    (s : CState n) (hx : Runs p sys n onDisk tr s) (hf : Fits tr) (hidle : ∀ t, s.pcs t = .idle) :
    (∀ k b, (k, b) ∈ acks tr → k + b.length ≤ s.db.len ∧
      ∀ j, j < b.length → s.db.get p (k + j) = .ok b[j]?) ∧
    (∀ i, i < s.db.len → ∃ k b, (k, b) ∈ acks tr ∧ k ≤ i ∧ i < k + b.length) ∧
    ∀ i, s.db.len ≤ i → i < 2 ^ 60 → s.db.get p i = .ok none := by
  obtain ⟨a, es, C, B, ha, hs, hB⟩ := runs_spec hp hx hf
  have hi := AInv.exec ha
  have hais : ∀ t, a.pcs t = .idle := by
    intro t
    have := hs.rel t
    rw [hidle t] at this
    exact this
  have hcount : a.counted = a.log.length := by
    rcases hi.settled with h | ⟨t, b, k, h⟩
    · exact h
    · rw [hais t] at h; cases h
  have hnorm : s.db.norm C es = s.db := by
    have h1 : s.db.data.size = C.length := by
      rcases hs.dsize with h | ⟨t, b, d, z, h⟩
      · exact h
      · rw [hidle t] at h; cases h
    have h2 := hs.icount
    have h3 := hs.inv.len_eq
    have h4 : (s.db.norm C es).len = es.length := by simp [DB.norm, DB.len, idxLen]
    have h5 : s.db.idx.size = 16 * es.length := by rw [h2, hcount, ← h3, h4]
    cases hdb : s.db with
    | mk d i =>
      cases d; cases i
      rw [hdb] at h1 h5
      simp only at h1 h5
      subst h1 h5
      rfl
  have hinv := hs.inv
  rw [hnorm] at hinv
  have hlen := hinv.len_eq
  have hlt := hinv.log_lt
  have hC : C.length < 2 ^ 60 := by
    have := hs.bytes
    omega
  have hfact : ∀ k b, (k, b) ∈ acks tr → ∃ t, Ev.ret t (.append b) (.seqno (.ok (some k))) ∈ tr := by
    intro k b
    clear hx hf ha hs hi
    induction tr with
    | nil => intro h; cases h
    | cons e tr ih =>
      intro h
      unfold acks at h
      split at h
      · cases h
      · rename_i t b' k' tr' heq
        cases heq
        rcases List.mem_cons.mp h with h | h
        · cases h; exact ⟨t, by simp⟩
        · obtain ⟨u, hu⟩ := ih h
          exact ⟨u, by simp [hu]⟩
      · rename_i e' tr' _ heq
        cases heq
        obtain ⟨u, hu⟩ := ih h
        exact ⟨u, by simp [hu]⟩
  refine ⟨?_, ?_, ?_⟩
  · intro k b hm
    obtain ⟨t, ht⟩ := hfact k b hm
    obtain ⟨_, _, h3, h4⟩ := hi.rets t _ _ ht
    refine ⟨by omega, ?_⟩
    intro j hj
    rw [hinv.get_ok (by omega), h4 j hj]
  · intro i hlt'
    rcases hi.cover i (by omega) with ⟨⟨k, b⟩, hm, h⟩ | ⟨t, x, hx', _⟩
    · exact ⟨k, b, hm, h.1, h.2⟩
    · rw [hais t] at hx'; cases hx'
  · intro i hi1 hi2
    rw [hinv.get_ok hi2, List.getElem?_eq_none (by omega)]

/-- **C08.** A record once read is returned by every read of that number that is called afterwards. -/
theorem C08_seen_again (p : Params) (sys : Bool) (hp : 16 ∣ p.minMmap) (n : Nat) (onDisk : Bool) (s : CState n)
    (t u : Fin n) (i : Nat) (v : List UInt8) (r : Resp) (tr1 tr2 tr3 tr4 : List (Ev n))
    (hx : Runs p sys n onDisk ((tr1 ++ .ret t (.get i) (.record (.ok (some v))) :: tr2) ++
      (.inv u (.get i) :: (tr3 ++ (.ret u (.get i) r :: tr4)))) s)
    (hf : Fits ((tr1 ++ .ret t (.get i) (.record (.ok (some v))) :: tr2) ++
      (.inv u (.get i) :: (tr3 ++ (.ret u (.get i) r :: tr4)))))
    (hown : ∀ e ∈ tr3, e.tid ≠ u) : r = .record (.ok (some v)) := by
  obtain ⟨a, _, _, _, ha, _⟩ := runs_spec hp hx hf
  obtain ⟨a1, a2, a3, a4, h1, h2, h3, h4, h5, h6⟩ := exec_call ha
  have hi := AInv.exec h1
  have hv : a1.log[i]? = some v := hi.rets t (.get i) (.record (.ok (some v))) (by simp)
  obtain ⟨g1, g2, g3⟩ := h2.grows hi.le
  have hv2 := prefix_get g1 hv
  obtain ⟨g4, g5, g6⟩ := h4.grows (by simpa using g3)
  have h7 := read_sees h4 (t := u) (by simpa using g3) (by simpa using hv2) (.inl (by simp)) hown
  have h8 := read_sees h5 g6 (prefix_get g4 (by simpa using hv2)) h7 (by simp)
  rcases h8 with h | h
  · rw [h6] at h; cases h
  · rw [h6] at h; cases h; rfl

/-- **C08.** A record of an acknowledged append is returned by every read called afterwards, by any
thread. -/
theorem C08_acknowledged_seen (p : Params) (sys : Bool) (hp : 16 ∣ p.minMmap) (n : Nat) (onDisk : Bool) (s : CState n)
    (t u : Fin n) (b : List (List UInt8)) (k j : Nat) (hj : j < b.length) (r : Resp)
    (tr1 tr2 tr3 tr4 : List (Ev n))
    (hx : Runs p sys n onDisk ((tr1 ++ .ret t (.append b) (.seqno (.ok (some k))) :: tr2) ++
      (.inv u (.get (k + j)) :: (tr3 ++ (.ret u (.get (k + j)) r :: tr4)))) s)
    (hf : Fits ((tr1 ++ .ret t (.append b) (.seqno (.ok (some k))) :: tr2) ++
      (.inv u (.get (k + j)) :: (tr3 ++ (.ret u (.get (k + j)) r :: tr4)))))
    (hown : ∀ e ∈ tr3, e.tid ≠ u) : r = .record (.ok (some b[j])) := by
  obtain ⟨a, _, _, _, ha, _⟩ := runs_spec hp hx hf
  obtain ⟨a1, a2, a3, a4, h1, h2, h3, h4, h5, h6⟩ := exec_call ha
  have hi := AInv.exec h1
  obtain ⟨_, _, _, hb⟩ := hi.rets t (.append b) (.seqno (.ok (some k))) (by simp)
  have hv : a1.log[k + j]? = some b[j] := by rw [hb j hj, List.getElem?_eq_getElem hj]
  obtain ⟨g1, g2, g3⟩ := h2.grows hi.le
  have hv2 := prefix_get g1 hv
  obtain ⟨g4, g5, g6⟩ := h4.grows (by simpa using g3)
  have h7 := read_sees h4 (t := u) (by simpa using g3) (by simpa using hv2) (.inl (by simp)) hown
  have h8 := read_sees h5 g6 (prefix_get g4 (by simpa using hv2)) h7 (by simp)
  rcases h8 with h | h
  · rw [h6] at h; cases h
  · rw [h6] at h; cases h; rfl

/-- **C08.** A length called after an append was acknowledged, or after another length was reported,
counts at least those records. -/
theorem C08_len_grows (p : Params) (sys : Bool) (hp : 16 ∣ p.minMmap) (n : Nat) (onDisk : Bool) (s : CState n)
    (t u : Fin n) (c : Call) (x r : Resp) (m : Nat)
    (hm : (c = .len ∧ x = .number m) ∨
      ∃ b k, c = .append b ∧ x = .seqno (.ok (some k)) ∧ m = k + b.length)
    (tr1 tr2 tr3 tr4 : List (Ev n))
    (hx : Runs p sys n onDisk ((tr1 ++ .ret t c x :: tr2) ++
      (.inv u .len :: (tr3 ++ (.ret u .len r :: tr4)))) s)
    (hf : Fits ((tr1 ++ .ret t c x :: tr2) ++ (.inv u .len :: (tr3 ++ (.ret u .len r :: tr4)))))
    (hown : ∀ e ∈ tr3, e.tid ≠ u) : ∃ m', m ≤ m' ∧ r = .number m' := by
  obtain ⟨a, _, _, _, ha, _⟩ := runs_spec hp hx hf
  obtain ⟨a1, a2, a3, a4, h1, h2, h3, h4, h5, h6⟩ := exec_call ha
  have hi := AInv.exec h1
  have hfact := hi.rets t c x (by simp)
  have hv : m ≤ a1.counted := by
    rcases hm with ⟨rfl, rfl⟩ | ⟨b, k, rfl, rfl, rfl⟩
    · exact hfact
    · exact hfact.2.2.1
  obtain ⟨g1, g2, g3⟩ := h2.grows hi.le
  obtain ⟨g4, g5, g6⟩ := h4.grows (by simpa using g3)
  have h7 := len_sees h4 (t := u) (m := m) (by simpa using g3) (by simp; omega) (.inl (by simp)) hown
  have h8 := len_sees h5 (m := m) g6 (le_trans (by simp; omega) g5) h7 (by simp)
  rcases h8 with h | ⟨m', hm', h⟩
  · rw [h6] at h; cases h
  · rw [h6] at h; cases h; exact ⟨m', hm', rfl⟩

/-- **C08.** Numbers below a reported length can be read afterwards: the read is not `None`. -/
theorem C08_counted_readable (p : Params) (sys : Bool) (hp : 16 ∣ p.minMmap) (n : Nat) (onDisk : Bool) (s : CState n)
    (t u : Fin n) (m i : Nat) (hi : i < m) (r : Resp) (tr1 tr2 tr3 tr4 : List (Ev n))
    (hx : Runs p sys n onDisk ((tr1 ++ .ret t .len (.number m) :: tr2) ++
      (.inv u (.get i) :: (tr3 ++ (.ret u (.get i) r :: tr4)))) s)
    (hf : Fits ((tr1 ++ .ret t .len (.number m) :: tr2) ++
      (.inv u (.get i) :: (tr3 ++ (.ret u (.get i) r :: tr4)))))
    (hown : ∀ e ∈ tr3, e.tid ≠ u) : ∃ v, r = .record (.ok (some v)) := by
  obtain ⟨a, _, _, _, ha, _⟩ := runs_spec hp hx hf
  obtain ⟨a1, a2, a3, a4, h1, h2, h3, h4, h5, h6⟩ := exec_call ha
  have hinv := AInv.exec h1
  have hm : m ≤ a1.counted := hinv.rets t .len (.number m) (by simp)
  have hle := hinv.le
  have hv : a1.log[i]? = some (a1.log[i]'(by omega)) := List.getElem?_eq_getElem (by omega)
  obtain ⟨g1, g2, g3⟩ := h2.grows hinv.le
  have hv2 := prefix_get g1 hv
  obtain ⟨g4, g5, g6⟩ := h4.grows (by simpa using g3)
  have h7 := read_sees h4 (t := u) (by simpa using g3) (by simpa using hv2) (.inl (by simp)) hown
  have h8 := read_sees h5 g6 (prefix_get g4 (by simpa using hv2)) h7 (by simp)
  rcases h8 with h | h
  · rw [h6] at h; cases h
  · rw [h6] at h; cases h; exact ⟨_, rfl⟩

/-- **C08.** The threads never block each other for good: as long as a call is unanswered, some thread can
take a step of a call already made (`none`: an internal step, `ret`: an answer). -/
theorem C08_no_deadlock (p : Params) (sys : Bool) (n : Nat) (onDisk : Bool) (tr : List (Ev n)) (s : CState n)
    (hx : Runs p sys n onDisk tr s) (hbusy : ∃ t, s.pcs t ≠ .idle) :
    ∃ ev s', CStep p sys s ev s' ∧ ∀ t c, ev ≠ some (.inv t c) := by
  obtain ⟨db, _, hx⟩ := hx
  have hl := lock_exec hx
  obtain ⟨t, ht⟩ := hbusy
  have hstep : ∀ u, s.pcs u ≠ .idle → (∀ b, s.pcs u = .start (.append b) → b ≠ [] → s.lock = none) →
      ∃ ev s', CStep p sys s ev s' ∧ ∀ t c, ev ≠ some (.inv t c) := fun u hu hf => can_step u hu hf
  cases hlock : s.lock with
  | none => exact hstep t ht (fun _ _ _ => hlock)
  | some u =>
    have hh := hl.2 u hlock
    refine hstep u ?_ ?_
    · intro h; rw [h] at hh; cases hh
    · intro b hb; rw [hb] at hh; cases hh

theorem pair_eq {α β : Type} {x : α × β} {a : α} (h : x.1 = a) : x = (a, x.2) := by
  rw [← h]

/-- A run with two threads: the second one reads the record of an append that has not finished, and then
asks for the length. -/
def laggingTrace : List (Ev 2) :=
  [.inv 0 (.append [[1]]), .inv 1 (.get 0), .ret 1 (.get 0) (.record (.ok (some [1]))), .inv 1 .len,
   .ret 1 .len (.number 0)]

/-- The run exists; it also shows that the hypotheses of the theorems above can be met. -/
theorem lagging_runs : ∃ s, Runs Params.code false 2 false laggingTrace s := by
  have h0 : Exec (CStep Params.code false) (cinit 2 freshMem) [] _ := .nil
  have h1 := h0.event (.invoke (t := 0) (c := .append [[1]]) rfl)
  have h2 := h1.silent (.lock (t := 0) (b := [[1]]) rfl (by decide) rfl)
  have h3 := h2.silent (.begin (t := 0) (b := [[1]]) rfl)
  have h4 := h3.silent (.loadData (t := 0) (b := [[1]]) (d0 := 0) rfl rfl)
  have h5 := h4.silent (.growData (t := 0) (b := [[1]]) (d0 := 0) (sz := 0) rfl (.inl rfl)
    (pair_eq (by decide +kernel)))
  have h6 := h5.silent (.storeData (t := 0) (b := [[1]]) (d0 := 0) (sz := 0) rfl)
  have h7 := h6.silent (.number (t := 0) (b := [[1]]) (d0 := 0) rfl)
  have h8 := h7.silent (.loadIdx (t := 0) (b := [[1]]) (d0 := 0) (k := 0) rfl)
  have h9 := h8.silent (.growIdx (t := 0) (b := [[1]]) (d0 := 0) (k := 0) (sz := 0) rfl (.inl rfl)
    (pair_eq (by decide +kernel)))
  have h10 := h9.event (.invoke (t := 1) (c := .get 0) rfl)
  have h11 := h10.silent (.find (t := 1) (i := 0) (o := 0) (l := 1) rfl (by decide +kernel))
  have h12 := h11.silent (.readData (t := 1) (i := 0) (o := 0) (l := 1) rfl)
  have h13 := h12.event (.answer (t := 1) (c := .get 0) (r := .record (.ok (some [1]))) (by
    simp only [CState.goto, Function.update_self]
    refine congrArg (fun x => PC.finished (.get 0) (Resp.record x)) ?_
    decide +kernel))
  have h14 := h13.event (.invoke (t := 1) (c := .len) rfl)
  have h15 := h14.silent (.count (t := 1) rfl)
  have h16 := h15.event (.answer (t := 1) (c := .len) (r := .number 0) rfl)
  exact ⟨_, freshMem, rfl, h16⟩

example : Fits laggingTrace := by
  refine ⟨?_, by decide⟩
  intro e he
  simp only [laggingTrace, List.mem_cons, List.not_mem_nil, or_false] at he
  rcases he with rfl | rfl | rfl | rfl | rfl <;> simp [Ev.small, Call.small]

/-- The system refuses to map memory for the index while the first thread appends; the second thread appends afterwards and reads its
record under the number that the refused append did not take. -/
def refusedTrace : List (Ev 2) :=
  [.inv 0 (.append [[1]]), .inv 1 (.append [[2]]), .ret 0 (.append [[1]]) (.seqno (.error .mmap)),
   .ret 1 (.append [[2]]) (.seqno (.ok (some 0))), .inv 0 (.get 0), .ret 0 (.get 0) (.record (.ok (some [2]))),
   .inv 1 .len, .ret 1 .len (.number 1), .inv 0 (.get 0), .ret 0 (.get 0) (.record (.ok (some [2])))]

/-- The run exists, and ends with both threads idle. -/
theorem refused_runs : ∃ s, Runs Params.code true 2 false refusedTrace s ∧ ∀ t, s.pcs t = .idle := by
  have h0 : Exec (CStep Params.code true) (cinit 2 freshMem) [] _ := .nil
  have h1 := h0.event (.invoke (t := 0) (c := .append [[1]]) rfl)
  have h2 := h1.silent (.lock (t := 0) (b := [[1]]) rfl (by decide) rfl)
  have h3 := h2.silent (.begin (t := 0) (b := [[1]]) rfl)
  have h4 := h3.silent (.loadData (t := 0) (b := [[1]]) (d0 := 0) rfl rfl)
  have h5 := h4.silent (.growData (t := 0) (b := [[1]]) (d0 := 0) (sz := 0) rfl (.inl rfl)
    (pair_eq (by decide +kernel)))
  have h6 := h5.silent (.storeData (t := 0) (b := [[1]]) (d0 := 0) (sz := 0) rfl)
  have h7 := h6.silent (.number (t := 0) (b := [[1]]) (d0 := 0) rfl)
  have h8 := h7.silent (.loadIdx (t := 0) (b := [[1]]) (d0 := 0) (k := 0) rfl)
  have h9 := h8.silent (.failIdx (t := 0) (b := [[1]]) (d0 := 0) (k := 0) (sz := 0) (e := .mmap) (ft := { map := true }) rfl
    (.inr ⟨rfl, rfl, rfl, rfl⟩) (pair_eq (by decide +kernel)))
  have h10 := h9.event (.invoke (t := 1) (c := .append [[2]]) rfl)
  have h11 := h10.silent (.unlock (t := 0) (b := [[1]]) (r := .error .mmap) rfl)
  have h12 := h11.silent (.lock (t := 1) (b := [[2]]) rfl (by decide) rfl)
  have h13 := h12.event (.answer (t := 0) (c := .append [[1]]) (r := .seqno (.error .mmap)) rfl)
  have h14 := h13.silent (.begin (t := 1) (b := [[2]]) rfl)
  have h15 := h14.silent (.loadData (t := 1) (b := [[2]]) (d0 := 1) rfl rfl)
  have h16 := h15.silent (.growData (t := 1) (b := [[2]]) (d0 := 1) (sz := 1) rfl (.inl rfl)
    (pair_eq (by decide +kernel)))
  have h17 := h16.silent (.storeData (t := 1) (b := [[2]]) (d0 := 1) (sz := 1) rfl)
  have h18 := h17.silent (.number (t := 1) (b := [[2]]) (d0 := 1) rfl)
  have h19 := h18.silent (.loadIdx (t := 1) (b := [[2]]) (d0 := 1) (k := 0) rfl)
  have h20 := h19.silent (.growIdx (t := 1) (b := [[2]]) (d0 := 1) (k := 0) (sz := 0) rfl (.inl rfl)
    (pair_eq (by decide +kernel)))
  have h21 := h20.silent (.storeIdx (t := 1) (b := [[2]]) (k := 0) (sz := 0) rfl)
  have h22 := h21.silent (.unlock (t := 1) (b := [[2]]) (r := .ok (some 0)) rfl)
  have h23 := h22.event (.answer (t := 1) (c := .append [[2]]) (r := .seqno (.ok (some 0))) rfl)
  have h24 := h23.event (.invoke (t := 0) (c := .get 0) rfl)
  have h25 := h24.silent (.find (t := 0) (i := 0) (o := 1) (l := 1) rfl (by decide +kernel))
  have h26 := h25.silent (.readData (t := 0) (i := 0) (o := 1) (l := 1) rfl)
  have h27 := h26.event (.answer (t := 0) (c := .get 0) (r := .record (.ok (some [2]))) (by
    simp only [CState.goto, Function.update_self]
    refine congrArg (fun x => PC.finished (.get 0) (Resp.record x)) ?_
    decide +kernel))
  have h28 := h27.event (.invoke (t := 1) (c := .len) rfl)
  have h29 := h28.silent (.count (t := 1) rfl)
  have h30 := h29.event (.answer (t := 1) (c := .len) (r := .number 1) (by
    simp only [CState.goto, Function.update_self]
    refine congrArg (fun x => PC.finished .len (Resp.number x)) ?_
    decide +kernel))
  have h31 := h30.event (.invoke (t := 0) (c := .get 0) rfl)
  have h32 := h31.silent (.find (t := 0) (i := 0) (o := 1) (l := 1) rfl (by decide +kernel))
  have h33 := h32.silent (.readData (t := 0) (i := 0) (o := 1) (l := 1) rfl)
  have h34 := h33.event (.answer (t := 0) (c := .get 0) (r := .record (.ok (some [2]))) (by
    simp only [CState.goto, Function.update_self]
    refine congrArg (fun x => PC.finished (.get 0) (Resp.record x)) ?_
    decide +kernel))
  exact ⟨_, ⟨freshMem, rfl, h34⟩, fun t => match t with | 0 => rfl | 1 => rfl⟩

theorem refused_fits : Fits refusedTrace := by
  refine ⟨?_, by decide⟩
  intro e he
  simp only [refusedTrace, List.mem_cons, List.not_mem_nil, or_false] at he
  rcases he with rfl | rfl | rfl | rfl | rfl | rfl | rfl | rfl | rfl | rfl <;> simp [Ev.small, Call.small]

/-- The theorems above apply to this run: to its whole, after its end, ... -/
example : ∃ s, Runs Params.code true 2 false refusedTrace s ∧ acks refusedTrace = [(0, [[2]])] ∧ 1 ≤ s.db.len ∧
    s.db.get Params.code 0 = .ok (some [2]) := by
  obtain ⟨s, hs, hi⟩ := refused_runs
  obtain ⟨h, _⟩ := C08_settled Params.code true (by decide) 2 false refusedTrace s hs refused_fits hi
  have h0 := h 0 [[2]] (by decide)
  exact ⟨s, hs, rfl, h0.1, h0.2 0 (by decide)⟩

/-- ... and to each answer after an earlier one: the read after the acknowledged append, the second read after the first, -/
example : Resp.record (.ok (some [2])) = .record (.ok (some [2])) ∧ Resp.record (.ok (some [2])) = .record (.ok (some [2])) := by
  obtain ⟨s, hs, _⟩ := refused_runs
  exact ⟨C08_acknowledged_seen Params.code true (by decide) 2 false s 1 0 [[2]] 0 0 (by decide) (.record (.ok (some [2])))
      (refusedTrace.take 3) [] [] (refusedTrace.drop 6) hs refused_fits (by simp),
    C08_seen_again Params.code true (by decide) 2 false s 0 0 0 [2] (.record (.ok (some [2]))) (refusedTrace.take 5)
      ((refusedTrace.drop 6).take 2) [] [] hs refused_fits (by simp)⟩

/-- the length after the append, and the read after the length. -/
example : (∃ m', 1 ≤ m' ∧ Resp.number 1 = .number m') ∧ ∃ v, Resp.record (.ok (some [2])) = .record (.ok (some v)) := by
  obtain ⟨s, hs, _⟩ := refused_runs
  exact ⟨C08_len_grows Params.code true (by decide) 2 false s 1 1 (.append [[2]]) (.seqno (.ok (some 0))) (.number 1) 1
      (.inr ⟨_, _, rfl, rfl, rfl⟩) (refusedTrace.take 3) ((refusedTrace.drop 4).take 2) [] (refusedTrace.drop 8) hs refused_fits
      (by simp),
    C08_counted_readable Params.code true (by decide) 2 false s 1 0 1 0 (by decide) (.record (.ok (some [2])))
      (refusedTrace.take 7) [] [] [] hs refused_fits (by simp)⟩

/-- What does not hold: the length may be behind the reads. A record with number `i` was read, and a
length asked for afterwards is not above `i` — the index entries can be read before the size is stored. -/
theorem C08_len_covers_reads_false :
    ¬ ∀ (n : Nat) (onDisk : Bool) (s : CState n) (t u : Fin n) (i m : Nat) (v : List UInt8)
      (tr1 tr2 tr3 : List (Ev n)),
      Runs Params.code false n onDisk (tr1 ++ .ret t (.get i) (.record (.ok (some v))) :: (tr2 ++
        (.inv u .len :: .ret u .len (.number m) :: tr3))) s → i < m := by
  intro h
  obtain ⟨s, hs⟩ := lagging_runs
  exact absurd (h 2 false s 1 1 0 0 [1] [.inv 0 (.append [[1]]), .inv 1 (.get 0)] [] [] hs) (by decide)

end Verif.Props
