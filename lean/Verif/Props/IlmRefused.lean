import Verif.Ilm.Recover
import Verif.Ilm.Refused
import Verif.Props.Ilm

/-!
# C66: refused appends, read-only maps, unreadable records

`fSpecRun` and `roSpecRun` (`Verif/Ilm/Refused.lean`) are the meanings of histories where appends are refused;
`MRecovers` (`Verif/Ilm/Recover.lean`) says what can be relied on when appends fail in any way.
-/

namespace Verif.Props

open Verif.Fraos Verif.Ilm

variable {K V : Type} [DecidableEq K]

/-- **C66.** Every history, on disk or in memory, in which the system refuses to extend or map files at any
calls: the refused appends answer that error and have no effect, neither on the log nor on the key index; all
other calls answer as if the refused ones had not been made. -/
theorem C66_refused (p : Params) (hp : 16 ∣ p.minMmap) (c : Codec K V) (hc : c.Lawful) (onDisk indexed : Bool)
    (calls : List (Call K V)) (hf : ∀ x ∈ calls, x.fd.Early ∧ x.fi.Early) (hbytes : fBytes c calls < 2 ^ 60) :
    ∃ m out, Ilm.fresh p onDisk indexed = .ok m ∧ List.Forall₂ Outcome calls out ∧
      fRun p c onDisk m [] calls = fSpecRun c onDisk ⟨[], [], indexed, []⟩ out := by
  obtain ⟨m, e, hr⟩ := fresh_rel p c onDisk indexed
  obtain ⟨out, h1, h2⟩ := fRun_spec hp hc calls hf hr (by omega)
  exact ⟨m, out, e, h1, h2⟩

/-- **C66.** Every history on disk in which the system may fail any append in any way, in the files of the log or in
the key index, and the process may die between calls, of a user who after an error of the log appends nothing more
before the directory has been opened again. An append whose key could not be recorded has added its value to the log
and to no key, and nothing else is lost. After an error of the log every read is answered exactly, for the log with
or without the failed value and for the keys recorded, except that `last` answers the last acknowledged value
(unless a retired mapping could not be protected: then nothing is said about reads). Opening the directory again
succeeds and shows every acknowledged value, followed by nothing or by the failed value, and the keys recorded; from
there on every call is answered exactly. Missing for the full property: appending on after an error of the log. -/
theorem C66_recovers_partial (p : Params) (hp : 16 ∣ p.minMmap) (hm : p.minMmap < 2 ^ 62) (c : Codec K V)
    (hc : c.Lawful) (indexed : Bool) (ops : List (AOp K V)) (hbytes : (ops.map (AOp.bytes c)).sum < 2 ^ 59) :
    ∃ m, Ilm.fresh p true indexed = .ok m ∧
      (MPrudent false (aTrace p c m [] ops) → MRecovers c .sound ⟨[], [], indexed, []⟩ (aTrace p c m [] ops)) := by
  obtain ⟨m, e, hr⟩ := fresh_rel p c true indexed
  exact ⟨m, e, (aTrace_recovers hp hm hc ops (s := ⟨[], [], indexed, []⟩) (by omega)).1 hr⟩

/-- A history with its answers, from an empty directory. -/
def aSample (ops : List (AOp Nat Nat)) : List (AOp Nat Nat × MResp Nat) :=
  match Ilm.fresh Params.code true true with
  | .error _ => []
  | .ok m => aTrace Params.code cborCodec m [] ops

/-- The flush of the index of the log fails, then the key index fails, then the process dies. -/
def failingMap : List (AOp Nat Nat) :=
  [.call (.append 1 7), .failing Faults.none { flush := true } false 2 8, .call .last, .call (.get 1), .call (.get 2),
    .call (.reopen true), .call .last, .call (.get 2), .failing Faults.none Faults.none true 3 9, .call .last,
    .die 1 true, .call (.get 1), .call (.getNext none), .call .last]

theorem failingMap_answers : (aSample failingMap).map (·.2) =
    [.done (.ok ()), .done (.error (.storage .flush)), .value (.ok (some 7)), .value (.ok (some 7)), .value (.ok none),
      .opened (.ok ()), .value (.ok (some 8)), .value (.ok none), .done (.error .index), .value (.ok (some 9)),
      .opened (.ok ()), .value (.ok none), .value (.ok (some 7)), .value (.ok (some 9))] := by decide +kernel

theorem zip_of_map {A B : Type} {l : List (A × B)} {as : List A} (h : l.map (·.1) = as) :
    l = as.zip (l.map (·.2)) := by
  subst h
  rw [List.zip_map']
  simp

omit [DecidableEq K] in
theorem aTrace_ops (p : Params) (c : Codec K V) (m : ILM) (its : List Nat) (ops : List (AOp K V)) :
    (aTrace p c m its ops).map (·.1) = ops := by
  induction ops generalizing m its with
  | nil => rfl
  | cons op ops ih => simp [aTrace, ih]

/-- That history is prudent: the failed value is in the log, and not under its key, in both cases. -/
example : MPrudent false (aSample failingMap) := by
  obtain ⟨m, e, _⟩ := fresh_rel Params.code cborCodec true true
  have h : (aSample failingMap).map (·.1) = failingMap := by
    simp only [aSample, e]
    exact aTrace_ops _ _ _ _ _
  rw [zip_of_map h, failingMap_answers]
  simp [failingMap, MPrudent, MResp.failed]

/-- **C66.** If the key index refuses the key of an append, the append answers an error although the value is in
the log: it is seen by the iterators and by `last`, but not under its key. -/
theorem C66_index_failure_false : ¬ ∀ (m : ILM) (k v : Nat), Ilm.fresh Params.code true true = .ok m →
    (∃ e, (appendWith Params.code cborCodec m Faults.none Faults.none true k v).1 = .error e) →
    Ilm.last Params.code cborCodec (appendWith Params.code cborCodec m Faults.none Faults.none true k v).2 =
      Ilm.last Params.code cborCodec m := by
  intro h
  obtain ⟨m, e, hr⟩ := fresh_rel Params.code cborCodec true true
  have hg := good_append_faults (p := Params.code) (by decide) hr.good Faults.none_early Faults.none_early
    (batch := [[7]]) (by simp) (by simp) (by simp)
  rcases hg with ⟨db1, e1, hg⟩ | ⟨er, db1, e1, hg, hwhy⟩
  · have hstep : appendWith Params.code cborCodec m Faults.none Faults.none true 1 7 =
        (.error .index, ⟨db1, m.journal, m.indexed⟩) := by
      have hk : cborCodec.encK 1 = some [1] := by decide
      have hv : cborCodec.encV 7 = some [7] := by decide
      simp [appendWith, hr.indexed, hk, hv, e1]
    have := h m 1 7 e ⟨_, by rw [hstep]⟩
    rw [hstep] at this
    obtain ⟨es, C, hinv, _⟩ := hg.ex
    obtain ⟨es', C', hinv', _⟩ := hr.good.ex
    unfold Ilm.last at this
    rw [hinv.last_ok, hinv'.last_ok] at this
    revert this
    decide
  · rcases hwhy with ⟨_, h | h⟩ | ⟨_, h | h⟩ <;> cases h

/-- **C66.** A map of any history on disk, closed and opened read-only with or without its key index: every call is
answered as before, except that every append is refused, and however many calls are made, opening the directory
again for writing afterwards gives the map as it was. -/
theorem C66_readonly (p : Params) (hp : 16 ∣ p.minMmap) (c : Codec K V) (hc : c.Lawful) (indexed : Bool)
    (ops : List (MOp K V)) (hbytes : mBytes c ops < 2 ^ 60) (m : ILM) (hm : Ilm.fresh p true indexed = .ok m)
    (s : MSpec K V) (hs : mSpecAfter c true ⟨[], [], indexed, []⟩ ops = s) (indexed' : Bool) :
    ∃ ro, reopenReadonly p (mAfter p c true m [] ops).1 indexed' = .ok ro ∧
      ∀ calls : List (MOp K V), (∀ op ∈ calls, op.Stays) →
        mRun p c true ro [] calls = roSpecRun c ⟨s.log, s.journal, indexed', []⟩ calls ∧
        ∀ indexed'' later, mBytes c ops + mBytes c later < 2 ^ 60 →
          ∃ m', Ilm.reopen p (mAfter p c true ro [] calls).1 true indexed'' = .ok m' ∧
            mRun p c true m' [] later = mSpecRun c true ⟨s.log, s.journal, indexed'', []⟩ later := by
  obtain ⟨m', e, hr⟩ := fresh_rel p c true indexed
  rw [hm] at e; cases e
  obtain ⟨_, _, h3⟩ := hr.run hp hc ops (by omega)
  rw [hs] at h3
  obtain ⟨ro, e1, hv, hro, hw⟩ := h3.readonly indexed'
  refine ⟨ro, e1, fun calls hcalls => ?_⟩
  obtain ⟨h4, h5⟩ := hv.readonly (p := p) hc calls hcalls hro
  refine ⟨h4, fun indexed'' later hl => ?_⟩
  obtain ⟨m1, e2, hr2⟩ := hw indexed''
  exact ⟨m1, by rw [← e2]; exact congrArg (fun x => Ilm.reopen p x true indexed'') h5,
    (hr2.run hp hc later (by omega)).1⟩

/-- What reading the bytes of `v` at another type gives. -/
def readBack {K' V' : Type} (c : Codec K V) (c' : Codec K' V') (v : V) : Except MErr V' :=
  match (c.encV v).bind c'.decV with
  | some v' => .ok v'
  | none => .error .decode

/-- **C66.** A log read at another type, where some records may not be readable: the iterator gives an error for
each unreadable record, at its place, and goes on with the next; none is skipped and the iteration does
not end early. `last` and `get_next` from nothing give the error of the last and first record. -/
theorem C66_unreadable {K' V' : Type} (p : Params) (hp : 16 ∣ p.minMmap) (c : Codec K V) (hc : c.Lawful)
    (c' : Codec K' V') (onDisk : Bool) (ops : List (MOp K V)) (hk : ∀ op ∈ ops, Kept onDisk op)
    (hbytes : mBytes c ops < 2 ^ 60) (m m' : ILM)
    (hm : Ilm.fresh p onDisk true = .ok m) (hm' : (mAfter p c onDisk m [] ops).1 = m') :
    (∀ n, items p c' m' n 0 =
      ((appended c ops).map (fun x : K × V => some (readBack c c' x.2)) ++ List.replicate n none).take n) ∧
    Ilm.last p c' m' = (match (appended c ops).getLast? with
      | none => .ok none
      | some x => (readBack c c' x.2).map some) ∧
    Ilm.getNext p c' m' none = (match (appended c ops).head? with
      | none => .ok none
      | some x => (readBack c c' x.2).map some) := by
  obtain ⟨its, hr⟩ := kept_rel p hp c hc onDisk ops hk hbytes m hm
  rw [hm'] at hr
  have hlt := hr.length_lt hbytes
  have henc := hr.encV
  obtain ⟨es, C, hinv, _⟩ := hr.good.ex
  simp only at hlt hinv henc
  generalize appended c ops = log at *
  have hrec : ∀ x ∈ log, item c' (.ok (some ((c.encV x.2).getD []))) = some (readBack c c' x.2) := by
    intro x hx
    obtain ⟨bs, hbs⟩ := Option.isSome_iff_exists.mp (henc x hx)
    simp only [item, readBack, hbs, Option.getD_some, Option.bind_some]
    cases c'.decV bs <;> rfl
  have hnext : ∀ i, i ≤ log.length → Ilm.next p c' m' i = (log[i]?.map (fun x => readBack c c' x.2),
      if i < log.length then i + 1 else i) := by
    intro i hi
    unfold Ilm.next
    rw [hinv.next_ok (by omega), records_getElem?]
    simp only [records, List.length_map]
    congr 1
    cases hx : log[i]? with
    | none => rfl
    | some x =>
      simp only [Option.map_some]
      exact hrec x (List.mem_of_getElem? hx)
  refine ⟨?_, ?_, ?_⟩
  · intro n
    have key : ∀ n i, i ≤ log.length → items p c' m' n i =
        ((log.drop i).map (fun x : K × V => some (readBack c c' x.2)) ++ List.replicate n none).take n := by
      intro n
      induction n with
      | zero => intro i _; simp [items]
      | succ n ih =>
        intro i hi
        simp only [items]
        rw [hnext i hi]
        by_cases hc' : i < log.length
        · simp only [if_pos hc']
          rw [ih (i + 1) (by omega), List.drop_eq_getElem_cons hc']
          simp only [List.getElem?_eq_getElem hc', Option.map_some, List.map_cons, List.cons_append,
            List.take_succ_cons]
          congr 1
          rw [List.take_append, List.take_append]
          congr 1
          simp only [List.take_replicate, List.length_map, List.length_drop]
          congr 1
          omega
        · simp only [if_neg hc']
          rw [ih i hi, List.drop_eq_nil_of_le (by omega)]
          simp only [List.getElem?_eq_none (Nat.le_of_not_lt hc'), Option.map_none, List.map_nil, List.nil_append,
            List.take_replicate, Nat.min_self, List.replicate_succ, List.take_succ_cons]
    simpa using key n 0 (Nat.zero_le _)
  · unfold Ilm.last
    rw [hinv.last_ok]
    have : (records c log).getLast? = log.getLast?.map (fun x => (c.encV x.2).getD []) := by simp [records]
    rw [this]
    cases hx : log.getLast? with
    | none => rfl
    | some x =>
      have hx' : x ∈ log := List.mem_of_getLast? hx
      obtain ⟨bs, hbs⟩ := Option.isSome_iff_exists.mp (henc x hx')
      simp only [Option.map_some, hbs, Option.getD_some, readBack, Option.bind_some]
      cases c'.decV bs <;> rfl
  · unfold Ilm.getNext
    rw [hnext 0 (Nat.zero_le _), ← List.head?_eq_getElem?]
    cases hx : log.head? with
    | none => rfl
    | some x =>
      simp only [Option.map_some, itemResult]
      cases readBack c c' x.2 <;> rfl

/-- A log of which one record of three cannot be read at the other type. -/
example : (appended cborCodec sampleMap).map (fun x => readBack cborCodec
      (⟨fun _ : Nat => none, fun _ => none, fun bs => if bs.length = 3 then none else some bs.length⟩ : Codec Nat Nat) x.2)
    = [.ok 2, .error .decode, .ok 5, .ok 1] := by decide +kernel

/-- Calls of which the system refuses two. -/
example : ∀ x ∈ ([⟨.append 1 5, { setLen := true }, {}⟩, ⟨.append 1 6, {}, {}⟩, ⟨.append 2 7, {}, { map := true }⟩,
    ⟨.get 1, {}, {}⟩] : List (Call Nat Nat)), x.fd.Early ∧ x.fi.Early := by
  intro x hx
  simp only [List.mem_cons, List.not_mem_nil, or_false] at hx
  rcases hx with rfl | rfl | rfl | rfl <;> exact ⟨⟨rfl, rfl, rfl⟩, ⟨rfl, rfl, rfl⟩⟩

end Verif.Props
