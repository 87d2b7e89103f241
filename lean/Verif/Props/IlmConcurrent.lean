import Verif.Props.Ilm
import Verif.Props.FraosConcurrent
import Verif.Ilm.AtomicLemmas
import Verif.Ilm.SharedRun

/-!
# C58: threads sharing a map

`SStep` (`Verif/Ilm/Shared.lean`) are the steps of all calls by any number of threads, down to the sections under a lock, the atomic
accesses of the log, and the accesses of the key index. `SpStep` is the specification, `AtStep` the machine of an object whose calls
are atomic.
-/

namespace Verif.Props

open Verif.Fraos Verif.Ilm

variable {K V : Type} {sys : Bool} [DecidableEq K]

/-- A new map, on disk or in memory, with or without the key index; one thread makes the calls `ops`; then `n` threads share it and
their calls and answers are `tr`. With `sys` the system may refuse to extend or to map the files of the log then. -/
def SharedBy (p : Params) (sys : Bool) (c : Codec K V) (onDisk indexed : Bool) (ops : List (MOp K V)) (n : Nat) (tr : List (SEv n K V))
    (s : SState n K V) : Prop :=
  ∃ m, Ilm.fresh p onDisk indexed = .ok m ∧
    Exec (SStep p c sys (mAfter p c onDisk m [] ops).1.indexed) (sinit n (mAfter p c onDisk m [] ops).1) tr s

/-- The meaning of the calls made before. -/
def before (c : Codec K V) (onDisk indexed : Bool) (ops : List (MOp K V)) : MSpec K V :=
  mSpecAfter c onDisk ⟨[], [], indexed, []⟩ ops

omit [DecidableEq K] in
/-- Positions of iterators below `2^60`, in total less than `2^60` bytes. -/
def SFits (c : Codec K V) (ops : List (MOp K V)) {n : Nat} (tr : List (SEv n K V)) : Prop :=
  (∀ e ∈ tr, e.small) ∧ mBytes c ops + (tr.map (SEv.bytes c)).sum < 2 ^ 60

section
variable {p : Params} {c : Codec K V} {onDisk indexed : Bool} {ops : List (MOp K V)} {n : Nat} {tr : List (SEv n K V)}
  {s : SState n K V}

theorem shared_spec (hp : 16 ∣ p.minMmap) (hc : c.Lawful) (h : SharedBy p sys c onDisk indexed ops n tr s) (hf : SFits c ops tr) :
    ∃ m sp, Ilm.fresh p onDisk indexed = .ok m ∧
      MRel p c onDisk (mAfter p c onDisk m [] ops).1 (before c onDisk indexed ops) (mBytes c ops) ∧
      Exec (SpStep c sys (before c onDisk indexed ops).indexed)
        (spinit n (before c onDisk indexed ops).log (before c onDisk indexed ops).journal) tr sp ∧
      MSim c (before c onDisk indexed ops).indexed (mBytes c ops + (tr.map (SEv.bytes c)).sum) s sp ∧
      Sized p onDisk (mBytes c ops + (tr.map (SEv.bytes c)).sum) s.cs := by
  obtain ⟨m, hm, hx⟩ := h
  obtain ⟨m', e, hr⟩ := fresh_rel p c onDisk indexed
  rw [hm] at e; cases e
  have hr := (hr.run hp hc ops (by have := hf.2; omega)).2.2
  simp only [Nat.zero_add] at hr
  have hi := hr.indexed
  change MRel p c onDisk (mAfter p c onDisk m [] ops).1 (before c onDisk indexed ops) (mBytes c ops) at hr
  change (mAfter p c onDisk m [] ops).1.indexed = (before c onDisk indexed ops).indexed at hi
  have h0 := msim_init n hr
  rw [hi] at hx h0
  obtain ⟨sp, h1, h2⟩ := msim_exec hp hc h0 hx hf.1 hf.2
  exact ⟨m, sp, hm, hr, h1, h2, msized_exec hp hc h0 (sized_init hr.good) hx hf.1 hf.2⟩

/-- The positions recorded before the threads lead to records under their keys. -/
theorem before_inv {m : ILM} {used : Nat} (n : Nat) (h : MRel p c onDisk m (before c onDisk indexed ops) used) :
    SpInv c (before c onDisk indexed ops).indexed
      (spinit n (before c onDisk indexed ops).log (before c onDisk indexed ops).journal) :=
  ⟨le_refl _, h.ok, by intro t k v i h; rcases h with h | h <;> cases h⟩

end

/-- **C58.** Whatever the schedule, the calls and answers of the threads are those of the specification, which starts with what the
calls made before mean. -/
theorem C58_refines (p : Params) (sys : Bool) (hp : 16 ∣ p.minMmap) (c : Codec K V) (hc : c.Lawful) (onDisk indexed : Bool)
    (ops : List (MOp K V)) (n : Nat) (tr : List (SEv n K V)) (s : SState n K V)
    (h : SharedBy p sys c onDisk indexed ops n tr s) (hf : SFits c ops tr) :
    ∃ sp, Exec (SpStep c sys (before c onDisk indexed ops).indexed)
      (spinit n (before c onDisk indexed ops).log (before c onDisk indexed ops).journal) tr sp := by
  obtain ⟨m, sp, _, _, h1, _⟩ := shared_spec hp hc h hf
  exact ⟨sp, h1⟩

omit [DecidableEq K] in
/-- **C58.** The program of a call, run by one thread alone, is the call of C12. -/
theorem C58_alone (p : Params) (c : Codec K V) (m : ILM) (k : K) (v : V) (i : Nat) (o : Option K) :
    (prog c m.indexed (.append k v)).run p m = (.done (Ilm.append p c m k v).1, (Ilm.append p c m k v).2) ∧
    (prog c m.indexed (.get k)).run p m = (.value (Ilm.get p c m k), m) ∧
    (prog c m.indexed (.contains k)).run p m = (.flag (Ilm.contains p c m k), m) ∧
    (prog c m.indexed .isEmpty).run p m = (.flag (Ilm.isEmpty m), m) ∧
    (prog c m.indexed .last).run p m = (.value (Ilm.last p c m), m) ∧
    (prog c m.indexed (.iterFrom k)).run p m = (.start (Ilm.iterFrom c m k), m) ∧
    (prog c m.indexed (.item i)).run p m = (.item (Ilm.next p c m i).1, m) ∧
    (prog c m.indexed (.getNext o)).run p m = (.value (Ilm.getNext p c m o), m) :=
  ⟨prog_run .., prog_run .., prog_run .., prog_run .., prog_run .., prog_run .., prog_run .., prog_run ..⟩

/-- **C58.** `append`, `get`, `contains` and `is_empty` are atomic: every run is one of a map from keys to values whose calls take
effect in one step between the call and its answer. The map starts with what `get` answered before the threads. -/
theorem C58_map_atomic (p : Params) (sys : Bool) (hp : 16 ∣ p.minMmap) (c : Codec K V) (hc : c.Lawful) (onDisk : Bool)
    (ops : List (MOp K V)) (hk : ∀ op ∈ ops, Kept onDisk op) (n : Nat) (tr : List (SEv n K V)) (s : SState n K V)
    (h : SharedBy p sys c onDisk true ops n tr s) (hf : SFits c ops tr) :
    ∃ m0 o, (∀ k, m0.lookup k = latest k (appended c ops)) ∧
      Exec (AtStep (kvEff c true) (refusal c sys true)) (atinit n m0) (kvEvents tr) o := by
  obtain ⟨m, sp, _, hr, h1, _⟩ := shared_spec hp hc h hf
  have hi := before_inv n hr
  have hx := kv_exec hi h1
  obtain ⟨its, hb⟩ := specAfter_kept c onDisk ops hk [] []
  have hb : before c onDisk true ops = ⟨appended c ops, numbered (appended c ops), true, its⟩ := by
    simpa [before, numbered] using hb
  rw [hb] at hx hi
  refine ⟨_, _, fun k => ?_, hx⟩
  rw [kvOf_lookup hi.ok k]
  exact lookup_numbered _ _

/-- **C58.** `append`, `next()` of iterators and `get_next` from nothing are atomic on the list of what was appended. -/
theorem C58_log_atomic (p : Params) (sys : Bool) (hp : 16 ∣ p.minMmap) (c : Codec K V) (hc : c.Lawful) (onDisk : Bool)
    (ops : List (MOp K V)) (hk : ∀ op ∈ ops, Kept onDisk op) (n : Nat) (tr : List (SEv n K V)) (s : SState n K V)
    (h : SharedBy p sys c onDisk true ops n tr s) (hf : SFits c ops tr) :
    ∃ o, Exec (AtStep (logEff c true) (refusal c sys true)) (atinit n (appended c ops)) (lgEvents tr) o := by
  obtain ⟨m, sp, _, hr, h1, _⟩ := shared_spec hp hc h hf
  have hx := lg_exec h1
  obtain ⟨its, hb⟩ := specAfter_kept c onDisk ops hk [] []
  have hb : before c onDisk true ops = ⟨appended c ops, numbered (appended c ops), true, its⟩ := by
    simpa [before, numbered] using hb
  rw [hb] at hx
  exact ⟨_, hx⟩

omit [DecidableEq K] in
theorem kvEvents_append {n : Nat} (a b : List (SEv n K V)) : kvEvents (a ++ b) = kvEvents a ++ kvEvents b := by
  simp [kvEvents]

omit [DecidableEq K] in
theorem kvEvents_cons {n : Nat} {e : SEv n K V} (h : e.call.kv = true) (b : List (SEv n K V)) :
    kvEvents (e :: b) = e :: kvEvents b := by
  simp [kvEvents, h]

/-- **C58.** Whatever the schedule, a read of `k` answers `None` or a value appended under `k` before the threads, or of an append
called before the answer. -/
theorem C58_reads (p : Params) (sys : Bool) (hp : 16 ∣ p.minMmap) (c : Codec K V) (hc : c.Lawful) (onDisk indexed : Bool)
    (ops : List (MOp K V)) (n : Nat) (tr1 tr2 : List (SEv n K V)) (s : SState n K V) (t : Fin n) (k : K) (v : V)
    (h : SharedBy p sys c onDisk indexed ops n (tr1 ++ .ret t (.get k) (.value (.ok (some v))) :: tr2) s)
    (hf : SFits c ops (tr1 ++ .ret t (.get k) (.value (.ok (some v))) :: tr2)) :
    MOp.append k v ∈ ops ∨ ∃ u, SEv.inv u (.append k v) ∈ tr1 := by
  obtain ⟨m, sp, _, hr, h1, _⟩ := shared_spec hp hc h hf
  have hi := before_inv n hr
  have hx := kv_exec hi h1
  rw [kvEvents_append, kvEvents_cons (by rfl)] at hx
  rcases kv_reads hx with h | ⟨u, h⟩
  · left
    obtain ⟨x, _, hx⟩ := List.mem_filterMap.mp h
    obtain ⟨y, hy, e⟩ := Option.map_eq_some_iff.mp hx
    have hmem : (k, v) ∈ (before c onDisk indexed ops).log := by
      obtain ⟨w, hw⟩ := hr.ok x (by assumption)
      have : y = (x.1, w) := by
        have hy' : (before c onDisk indexed ops).log[x.2]? = some y := hy
        rw [hw] at hy'; exact (Option.some.inj hy').symm
      cases this
      cases e
      exact List.mem_of_getElem? hy
    -- what is in the log was appended
    have key : ∀ (ops : List (MOp K V)) (st : MSpec K V), (k, v) ∈ (mSpecAfter c onDisk st ops).log →
        (k, v) ∈ st.log ∨ MOp.append k v ∈ ops := by
      intro ops
      induction ops with
      | nil => intro st h; exact .inl h
      | cons op ops ih =>
        intro st h
        rcases ih (mSpecStep c onDisk st op).2 h with h | h
        · have : (k, v) ∈ st.log ∨ op = .append k v := by
            cases op with
            | append k' v' =>
              simp only [mSpecStep] at h
              split at h
              · split at h
                · simp only [List.mem_append, List.mem_singleton, Prod.mk.injEq] at h
                  rcases h with h | ⟨rfl, rfl⟩
                  · exact .inl h
                  · exact .inr rfl
                · exact .inl h
              · exact .inl h
            | iterFrom k' =>
              left
              simp only [mSpecStep, MSpec.start] at h
              split at h <;> exact h
            | next it =>
              left
              simp only [mSpecStep] at h
              split at h <;> exact h
            | getNext k => left; cases k <;> exact h
            | reopen _ =>
              left
              simp only [mSpecStep] at h
              split at h
              · exact h
              · cases h
            | _ => exact .inl h
          rcases this with h | rfl
          · exact .inl h
          · exact .inr (by simp)
        · exact .inr (by simp [h])
    rcases key ops _ hmem with h | h
    · cases h
    · exact h
  · exact .inr ⟨u, (List.mem_filter.mp h).1⟩

/-- **C58.** Once an append under `k` was answered, a read of `k` called afterwards finds a value. -/
theorem C58_not_lost (p : Params) (sys : Bool) (hp : 16 ∣ p.minMmap) (c : Codec K V) (hc : c.Lawful) (onDisk indexed : Bool)
    (ops : List (MOp K V)) (n : Nat) (tr1 tr2 tr3 tr4 : List (SEv n K V)) (s : SState n K V) (t u : Fin n) (k : K) (v : V)
    (r : SResp V) (tr : List (SEv n K V)) (htr : tr = tr1 ++ .ret t (.append k v) (.done (.ok ())) :: (tr2 ++
      .inv u (.get k) :: (tr3 ++ .ret u (.get k) r :: tr4)))
    (hown : ∀ e ∈ tr3, e.tid ≠ u) (h : SharedBy p sys c onDisk indexed ops n tr s) (hf : SFits c ops tr) :
    ∃ v', r = .value (.ok (some v')) := by
  obtain ⟨m, sp, _, hr, h1, _⟩ := shared_spec hp hc h hf
  have hx := kv_exec (before_inv n hr) h1
  rw [htr, kvEvents_append, kvEvents_cons (by rfl), kvEvents_append, kvEvents_cons (by rfl), kvEvents_append,
    kvEvents_cons (by rfl)] at hx
  obtain ⟨s1, s2, hx1, hs1, hx⟩ := hx.at
  obtain ⟨s3, s4, hx2, hs2, hx⟩ := hx.at
  obtain ⟨s5, s6, hx3, hs3, _⟩ := hx.at
  have hput : (s2.obj.lookup k).isSome ∧ (before c onDisk indexed ops).indexed = true ∧ (c.encK k).isSome := by
    cases hs1 with
    | answer ht => exact kv_put hx1 (fun _ => rfl) ht
  have h3 : (s4.obj.lookup k).isSome ∧ s4.pcs u = .called (.get k) := by
    have := kv_keeps hx2 hput.1
    cases hs2 with
    | invoke _ => exact ⟨this, by simp⟩
  have h4 := kv_sees hx3 h3.1 h3.2 (fun e he => hown e (List.mem_filter.mp he).1)
  cases hs3 with
  | answer ht =>
    rw [ht] at h4
    rcases h4 with h | ⟨v', h⟩
    · cases h
    · cases h
      exact ⟨v', by simp [keyed, hput.2.1, hput.2.2]⟩

/-- **C58.** A value is read back: if an append under `k` overlaps no other one under `k`, a read of `k` called after its answer
answers its value, unless another append under `k` is called before the read answers. -/
theorem C58_last_write (p : Params) (sys : Bool) (hp : 16 ∣ p.minMmap) (c : Codec K V) (hc : c.Lawful) (onDisk indexed : Bool)
    (ops : List (MOp K V)) (n : Nat) (tr1 tr2 tr3 tr4 tr5 : List (SEv n K V)) (s : SState n K V) (w u : Fin n) (k : K) (v : V)
    (r : SResp V) (tr : List (SEv n K V)) (htr : tr = tr1 ++ .inv w (.append k v) :: (tr2 ++
      .ret w (.append k v) (.done (.ok ())) :: (tr3 ++ .inv u (.get k) :: (tr4 ++ .ret u (.get k) r :: tr5))))
    (hopen : ∀ t, ¬ Open k tr1 t) (hw : ∀ e ∈ tr2, e.tid ≠ w) (hu : ∀ e ∈ tr4, e.tid ≠ u)
    (hno : ∀ t v', SEv.inv t (.append k v') ∉ tr2 ++ tr3 ++ tr4)
    (h : SharedBy p sys c onDisk indexed ops n tr s) (hf : SFits c ops tr) : r = .value (.ok (some v)) := by
  obtain ⟨m, sp, _, hr, h1, _⟩ := shared_spec hp hc h hf
  have hi := before_inv n hr
  rw [htr] at h1
  obtain ⟨s1, s2, hx1, hs1, hx⟩ := h1.at
  have hi1 := hi.exec hx1
  have hi2 := hi1.step hs1
  obtain ⟨s3, s4, hx2, hs2, hx⟩ := hx.at
  have hi3 := hi2.exec hx2
  have hi4 := hi3.step hs2
  obtain ⟨s5, s6, hx3, hs3, hx⟩ := hx.at
  have hi5 := hi4.exec hx3
  have hi6 := hi5.step hs3
  obtain ⟨s7, s8, hx4, hs4, _⟩ := hx.at
  have hev : ∀ {x : List (SEv n K V)}, (∀ t v', SEv.inv t (.append k v') ∉ x) → ∀ t v', SEv.inv t (.append k v') ∉ kvEvents x :=
    fun hx t v' hm => hx t v' (List.mem_filter.mp hm).1
  have htid : ∀ {x : List (SEv n K V)} {w : Fin n}, (∀ e ∈ x, e.tid ≠ w) → ∀ e ∈ kvEvents x, e.tid ≠ w :=
    fun hx e hm => hx e (List.mem_filter.mp hm).1
  -- nobody appends under `k` when thread `w` calls
  have hfree : ∀ t v', (viewOf kvOf kvPc s1).pcs t ≠ .called (.append k v') := by
    intro t v' ht
    refine hopen t (busy_open hx1 k t ?_)
    simp only [viewOf] at ht
    cases hpc : s1.pcs t with
    | called cl =>
      rw [hpc] at ht
      simp only [kvPc] at ht
      split at ht
      · cases ht; rfl
      · cases ht
    | put k' v'' i => rw [hpc] at ht; cases ht; rfl
    | counted k' v'' i => rw [hpc] at ht; cases ht; rfl
    | ready cl r =>
      rw [hpc] at ht
      simp only [kvPc] at ht
      split at ht <;> cases ht
    | _ => rw [hpc] at ht; cases ht
  have hw2 : (viewOf kvOf kvPc s2).pcs w = .called (.append k v) ∧
      ∀ t v', (viewOf kvOf kvPc s2).pcs t = .called (.append k v') → t = w := by
    cases hs1 with
    | invoke _ =>
      refine ⟨by simp [viewOf, kvPc, SCall.kv], fun t v' ht => ?_⟩
      by_contra htw
      refine hfree t v' ?_
      simpa [viewOf, Function.update_of_ne htw] using ht
  obtain ⟨h3, h3'⟩ := kv_alone (kv_exec hi2 hx2) hw2.1 hw2.2 (htid hw) (hev (fun t v' hm => hno t v' (by simp [hm])))
  have h4 : ((viewOf kvOf kvPc s4).obj.lookup k = some v ∧ (before c onDisk indexed ops).indexed = true ∧ (c.encK k).isSome) ∧
      ∀ t v', (viewOf kvOf kvPc s4).pcs t ≠ .called (.append k v') := by
    cases hs2 with
    | answer ht =>
      simp only [viewOf, ht, kvPc, SCall.kv, if_true] at h3'
      rcases h3' with h | ⟨r', h, h'⟩
      · cases h
      · cases h
        refine ⟨h' rfl, fun t v' hm => ?_⟩
        by_cases htw : t = w
        · subst htw; simp [viewOf, kvPc] at hm
        · exact htw (h3 t v' (by simpa [viewOf, Function.update_of_ne htw] using hm))
  obtain ⟨h5, h5', _⟩ := kv_still (kv_exec hi4 hx3) h4.2 (hev (fun t v' hm => hno t v' (by simp [hm]))) h4.1.1
  have h6 : (viewOf kvOf kvPc s6).obj.lookup k = some v ∧ (viewOf kvOf kvPc s6).pcs u = .called (.get k) ∧
      ∀ t v', (viewOf kvOf kvPc s6).pcs t ≠ .called (.append k v') := by
    cases hs3 with
    | invoke _ =>
      refine ⟨h5', by simp [viewOf, kvPc, SCall.kv], fun t v' hm => ?_⟩
      by_cases htu : t = u
      · subst htu; simp [viewOf, kvPc, SCall.kv] at hm
      · exact h5 t v' (by simpa [viewOf, Function.update_of_ne htu] using hm)
  obtain ⟨_, _, h7⟩ := kv_still (kv_exec hi6 hx4) h6.2.2 (hev (fun t v' hm => hno t v' (by simp [hm]))) h6.1
  have h8 := h7 u (htid hu) h6.2.1
  cases hs4 with
  | answer ht =>
    simp only [viewOf, ht, kvPc, SCall.kv, if_true] at h8
    rcases h8 with h | h
    · cases h
    · cases h
      simp [keyed, h4.1.2.1, h4.1.2.2]

theorem sp_prefix {c : Codec K V} {indexed : Bool} {n : Nat} {s s' : SpState n K V} {tr : List (SEv n K V)}
    (hx : Exec (SpStep c sys indexed) s tr s') : s.sh.log <+: s'.sh.log := by
  refine Exec.invariant (P := fun _ s' => s.sh.log <+: s'.sh.log) (List.prefix_refl _) ?_ hx
  intro _ s1 _ s2 h hs
  cases hs with
  | put _ _ _ _ _ => exact h.trans (List.prefix_append _ _)
  | _ => exact h

/-- The key of an answered append is recorded. -/
theorem acked_key {c : Codec K V} {indexed : Bool} {n : Nat} {s s' : SpState n K V} {tr : List (SEv n K V)}
    (h0 : ∀ t, s.pcs t = .idle) (hx : Exec (SpStep c sys indexed) s tr s') (x : K × V) (hm : x ∈ acked tr) :
    (s'.sh.keys.lookup x.1).isSome := by
  have keep : ∀ {a b : SpState n K V} {ev : Option (SEv n K V)} (k : K), SpStep c sys indexed a ev b →
      (a.sh.keys.lookup k).isSome → (b.sh.keys.lookup k).isSome := by
    intro a b ev k hs h
    cases hs with
    | record _ =>
      simp only [List.lookup_cons]
      split
      · rfl
      · exact h
    | _ => exact h
  refine (Exec.invariant (P := fun tr s' => (∀ x ∈ acked tr, (s'.sh.keys.lookup x.1).isSome) ∧
    ∀ t k v, s'.pcs t = .ready (.append k v) (.done (.ok ())) → (s'.sh.keys.lookup k).isSome)
    ⟨by intro x hx; simp [acked] at hx, fun t k v h => by rw [h0] at h; cases h⟩ ?_ hx).1 x hm
  rintro tr a ev b ⟨h1, h2⟩ hs
  have hk := fun k => keep k hs
  refine ⟨?_, ?_⟩
  · intro x hx
    simp only [acked, List.filterMap_append, List.mem_append] at hx
    rcases hx with hx | hx
    · exact hk _ (h1 x hx)
    · cases hs with
      | @answer t cl r ht =>
        simp only [Option.toList_some, List.filterMap_cons, List.filterMap_nil] at hx
        split at hx
        · cases hx
        · rename_i heq
          simp only [List.mem_singleton] at hx
          subst hx
          split at heq
          · rename_i k v he
            cases he
            cases heq
            exact h2 _ _ _ ht
          · cases heq
      | _ => simp at hx
  · intro t k v ht
    cases hs with
    | @invoke u cl hu =>
      rcases update_cases ht with ⟨_, he⟩ | ⟨_, he⟩
      · cases he
      · exact h2 t k v he
    | @answer u cl r hu =>
      rcases update_cases ht with ⟨_, he⟩ | ⟨_, he⟩
      · cases he
      · exact h2 t k v he
    | @look u cl r hu hl =>
      rcases update_cases ht with ⟨_, he⟩ | ⟨_, he⟩
      · cases he
        simp only [look] at hl
        split at hl
        · split at hl <;> cases hl
        · cases hl
      · exact h2 t k v he
    | @fail u cl r hu hf =>
      rcases update_cases ht with ⟨_, he⟩ | ⟨_, he⟩
      · cases he; exact absurd rfl (refusal_ok hf)
      · exact h2 t k v he
    | @put u k' v' hu _ _ _ _ =>
      rcases update_cases ht with ⟨_, he⟩ | ⟨_, he⟩
      · cases he
      · exact h2 t k v he
    | @count u k' v' i hu =>
      rcases update_cases ht with ⟨_, he⟩ | ⟨_, he⟩
      · cases he
      · exact h2 t k v he
    | @record u k' v' i hu =>
      rcases update_cases ht with ⟨_, he⟩ | ⟨_, he⟩
      · cases he; simp
      · exact hk k (h2 t k v he)
    | @pass u k' i hu _ _ _ =>
      rcases update_cases ht with ⟨_, he⟩ | ⟨_, he⟩
      · cases he
      · exact h2 t k v he
    | @follow u k' i hu =>
      rcases update_cases ht with ⟨_, he⟩ | ⟨_, he⟩
      · cases he
      · exact h2 t k v he

/-- What was there, then the answered appends once each. -/
theorem settled_log {c : Codec K V} {indexed : Bool} {n : Nat} {log : List (K × V)} {keys : List (K × Nat)}
    {tr : List (SEv n K V)} {s : SpState n K V} (hx : Exec (SpStep c sys indexed) (spinit n log keys) tr s)
    (hidle : ∀ t, s.pcs t = .idle) : ∃ more, s.sh.log = log ++ more ∧ more.Perm (acked tr) := by
  obtain ⟨more, hmore⟩ := sp_prefix hx
  refine ⟨more, hmore.symm, ?_⟩
  have h1 := once_exec hx
  have h2 : ∑ t, (s.pcs t).held = 0 := Finset.sum_eq_zero (fun t _ => by rw [hidle t]; rfl)
  rw [h2, ← hmore] at h1
  have h3 : (log : Multiset (K × V)) + (more : Multiset (K × V)) = (log : Multiset (K × V)) + (acked tr : Multiset (K × V)) := by
    simpa [spinit] using h1
  exact Multiset.coe_eq_coe.mp (add_left_cancel h3)

/-- **C58.** When all threads have their answers, the log is what it was before followed by the answered appends, once each; a
position is recorded for the key of every answered append; positions lead to records under their keys; and the map answers all later
calls accordingly. -/
theorem C58_settled (p : Params) (sys : Bool) (hp : 16 ∣ p.minMmap) (c : Codec K V) (hc : c.Lawful) (onDisk indexed : Bool)
    (ops : List (MOp K V)) (n : Nat) (tr : List (SEv n K V)) (s : SState n K V)
    (h : SharedBy p sys c onDisk indexed ops n tr s) (hf : SFits c ops tr) (hidle : ∀ t, s.pcs t = .idle) :
    ∃ more keys, more.Perm (acked tr) ∧ (∀ x ∈ acked tr, (keys.lookup x.1).isSome) ∧
      (∀ x ∈ keys, ∃ v, ((before c onDisk indexed ops).log ++ more)[x.2]? = some (x.1, v)) ∧
      ∀ later, mBytes c ops + (tr.map (SEv.bytes c)).sum + mBytes c later < 2 ^ 60 →
        mRun p c onDisk (s.map (before c onDisk indexed ops).indexed) [] later =
          mSpecRun c onDisk ⟨(before c onDisk indexed ops).log ++ more, keys, (before c onDisk indexed ops).indexed, []⟩ later := by
  obtain ⟨m, sp, _, hr, h1, h2, h3⟩ := shared_spec hp hc h hf
  obtain ⟨hrel, _, hid⟩ := h2.rel h3 hidle
  obtain ⟨more, hlog, hperm⟩ := settled_log h1 hid
  refine ⟨more, sp.sh.keys, hperm, fun x hx => acked_key (fun _ => rfl) h1 x hx, ?_, ?_⟩
  · intro x hx
    have := hrel.ok x hx
    rwa [hlog] at this
  · intro later hl
    have := (hrel.run hp hc later hl).1
    rwa [hlog] at this

theorem lookup_lastPos (l : List (K × V)) (k : K) : (numbered l).lookup k = lastPos k l 0 none := by
  induction l using List.reverseRecOn with
  | nil => rfl
  | append_singleton l x ih =>
    rw [numbered_concat, lastPos_concat, List.lookup_cons, ih]
    by_cases hk : x.1 = k
    · subst hk; simp
    · have : (k == x.1) = false := by rw [beq_eq_false_iff_ne]; exact fun h => hk h.symm
      simp [this, hk]

/-- **C58.** As long as appends under `k` do not overlap, `get` of `k` answers the value that is last under `k` in the log, whatever
happens under other keys. -/
theorem C58_latest_partial (p : Params) (sys : Bool) (hp : 16 ∣ p.minMmap) (c : Codec K V) (hc : c.Lawful) (onDisk : Bool)
    (ops : List (MOp K V)) (hk : ∀ op ∈ ops, Kept onDisk op) (n : Nat) (tr : List (SEv n K V)) (s : SState n K V)
    (h : SharedBy p sys c onDisk true ops n tr s) (hf : SFits c ops tr) (hidle : ∀ t, s.pcs t = .idle) (k : K)
    (hek : (c.encK k).isSome) (hapart : Apart k tr) :
    ∃ more, more.Perm (acked tr) ∧
      (∀ m, items p c (s.map true) m 0 = valuesThenEnd (appended c ops ++ more) m) ∧
      Ilm.get p c (s.map true) k = .ok (latest k (appended c ops ++ more)) := by
  obtain ⟨m, sp, _, hr, h1, h2, h3⟩ := shared_spec hp hc h hf
  obtain ⟨its, hb⟩ := specAfter_kept c onDisk ops hk [] []
  have hb : before c onDisk true ops = ⟨appended c ops, numbered (appended c ops), true, its⟩ := by
    simpa [before, numbered] using hb
  rw [hb] at h1 h2
  obtain ⟨hrel, _, hid⟩ := h2.rel h3 hidle
  obtain ⟨more, hlog, hperm⟩ := settled_log h1 hid
  have hfol := follows_exec h1 k (lookup_lastPos _ _) hapart
  have hlast : sp.sh.keys.lookup k = lastPos k sp.sh.log 0 none := by
    rcases hfol.2 with ⟨t, v, i, h, _⟩ | ⟨_, h⟩
    · rw [hid t] at h; rcases h with h | h <;> cases h
    · exact h
  refine ⟨more, hperm, fun m => ?_, ?_⟩
  · have := items_eq hc hrel hf.2 m 0 (Nat.zero_le _)
    simpa [hlog] using this
  · have hg := hrel.get_eq hc hf.2 k
    have hl : (List.lookup k sp.sh.keys).bind (MSpec.at_ ⟨sp.sh.log, sp.sh.keys, true, []⟩) = latest k sp.sh.log := by
      rw [hlast, ← lookup_lastPos]
      exact lookup_numbered _ _
    rw [hlog] at hl
    simp only [MSpec.keyed, hek, if_true] at hg
    rw [hg]
    simp only at hl ⊢
    rw [← hl, hlog]

/-- The run below: the second append is stored last but its key is recorded first. -/
def overtaken : List (SEv 2 Nat Nat) :=
  [.inv 0 (.append 1 10), .inv 1 (.append 1 20), .ret 1 (.append 1 20) (.done (.ok ())),
   .ret 0 (.append 1 10) (.done (.ok ())), .inv 0 (.get 1), .ret 0 (.get 1) (.value (.ok (some 10))),
   .inv 1 (.item 0), .ret 1 (.item 0) (.item (some (.ok 10))), .inv 1 (.item 1), .ret 1 (.item 1) (.item (some (.ok 20))),
   .inv 1 .last, .ret 1 .last (.value (.ok (some 20)))]

/-- An append that still has to record its key. -/
def unrecorded (k : UInt8) (v i : Nat) : SPC Nat Nat := .at_ (.append k.toNat v) (.insert [k] (posEnc i) (.done (.done (.ok ()))))

/-- The log after an append of the record `r`. -/
def withRecord (db : DB) (r : List UInt8) : DB :=
  ⟨⟨(db.data.g.grow Params.code Faults.none ([r].map List.length).sum (writeRecords [r])).2, db.data.size + ([r].map List.length).sum⟩,
   ⟨(db.idx.g.grow Params.code Faults.none (16 * [r].length) (writeEntries (entriesFrom db.data.size [r]))).2,
    db.idx.size + 16 * [r].length⟩⟩

/-- The log with both records. -/
def bothStored : DB := withRecord (withRecord freshMem [10]) [20]

theorem store_run (db : DB) (j : List (List UInt8 × List UInt8)) (pcs : Fin 2 → SPC Nat Nat) (t : Fin 2) (cl : SCall Nat Nat)
    (r : List UInt8) (next : Resp → Prog (SResp Nat)) (ht : pcs t = .at_ cl (.log (.append [r]) next)) (hr : r.isEmpty = false)
    (hd : (db.data.g.grow Params.code Faults.none ([r].map List.length).sum (writeRecords [r])).1 = .ok ())
    (hi : (db.idx.g.grow Params.code Faults.none (16 * [r].length) (writeEntries (entriesFrom db.data.size [r]))).1 = .ok ())
    (k : Nat) (hk : db.len = k) :
    Exec (SStep Params.code cborCodec sys true) ⟨cinit 2 db, j, pcs⟩ []
      ⟨cinit 2 (withRecord db r), j, Function.update pcs t (.at_ cl (next (.seqno (.ok (some k)))))⟩ := by
  subst hk
  exact run_append (s := ⟨cinit 2 db, j, pcs⟩) ht rfl rfl (by simp) (by simp [hr]) (pair_eq hd) (pair_eq hi)

theorem read_run (db : DB) (j : List (List UInt8 × List UInt8)) (pcs : Fin 2 → SPC Nat Nat) (t : Fin 2) (cl : SCall Nat Nat)
    (i : Nat) (next : Resp → Prog (SResp Nat)) (ht : pcs t = .at_ cl (.log (.get i) next)) (x : Except Err (Option (List UInt8)))
    (hx : db.get Params.code i = x) :
    Exec (SStep Params.code cborCodec sys true) ⟨cinit 2 db, j, pcs⟩ []
      ⟨cinit 2 db, j, Function.update pcs t (.at_ cl (next (.record x)))⟩ := by
  subst hx
  exact run_get (s := ⟨cinit 2 db, j, pcs⟩) ht rfl

theorem len_run (db : DB) (j : List (List UInt8 × List UInt8)) (pcs : Fin 2 → SPC Nat Nat) (t : Fin 2) (cl : SCall Nat Nat)
    (next : Resp → Prog (SResp Nat)) (ht : pcs t = .at_ cl (.log .len next)) (x : Nat) (hx : db.len = x) :
    Exec (SStep Params.code cborCodec sys true) ⟨cinit 2 db, j, pcs⟩ []
      ⟨cinit 2 db, j, Function.update pcs t (.at_ cl (next (.number x)))⟩ := by
  subst hx
  exact run_len (s := ⟨cinit 2 db, j, pcs⟩) ht rfl

/-- The same place of the threads, written differently. -/
theorem same_places {a : SState 2 Nat Nat} {tr : List (SEv 2 Nat Nat)} {cs : CState 2} {j : List (List UInt8 × List UInt8)}
    {f : Fin 2 → SPC Nat Nat} (h : Exec (SStep Params.code cborCodec sys true) a tr ⟨cs, j, f⟩) {x y : SPC Nat Nat} (hx : f 0 = x)
    (hy : f 1 = y) : Exec (SStep Params.code cborCodec sys true) a tr ⟨cs, j, fun t => if t = 0 then x else y⟩ := by
  have : f = fun t => if t = 0 then x else y := by
    funext t
    match t with
    | 0 => exact hx
    | 1 => exact hy
  rwa [this] at h

theorem key_found : SPC.at_ (.get 1) ((fun r => match r with
      | none => .done (.value (.ok none))
      | some bs => match posDec bs with
        | none => .done (.value (.error .panic))
        | some pos => .log (.get pos) (fun r => .done (.value (itemResult (item cborCodec (recordOf r)))))) (some (posEnc 0)) :
      Prog (SResp Nat)) =
    (.at_ (.get 1) (.log (.get 0) (fun r => .done (.value (itemResult (item cborCodec (recordOf r)))))) : SPC Nat Nat) := by
  simp only [posDec_posEnc]

theorem both_reads : bothStored.get Params.code 0 = .ok (some [10]) ∧ bothStored.get Params.code 1 = .ok (some [20]) ∧
    bothStored.len = 2 := by
  refine ⟨by decide +kernel, by decide +kernel, by decide +kernel⟩

/-- **C58** is false for "latest": two threads append 10 and 20 under key 1 and get their answers. Afterwards iteration shows 10, then
20, `last` is 20, and `get` of the key answers 10. There is no common lock around the log and the key index. -/
theorem C58_latest_false (sys : Bool) : ∃ s, SharedBy Params.code sys cborCodec false true [] 2 overtaken s ∧ ∀ t, s.pcs t = .idle := by
  have h0 : Exec (SStep Params.code cborCodec sys true) (sinit 2 ⟨freshMem, [], true⟩) [] _ := .nil
  have h1 := h0.event (.invoke (t := 0) (cl := .append 1 10) rfl)
  have h2 := h1.event (.invoke (t := 1) (cl := .append 1 20) rfl)
  have h3 := same_places (h2.append (store_run freshMem [] _ 0 (.append 1 10) [10] _ rfl rfl (by decide +kernel) (by decide +kernel)
    0 rfl)) (x := unrecorded 1 10 0) rfl rfl
  have h4 := same_places (h3.append (store_run (withRecord freshMem [10]) [] _ 1 (.append 1 20) [20] _ rfl rfl (by decide +kernel)
    (by decide +kernel) 1 (by decide +kernel))) (y := unrecorded 1 20 1) rfl rfl
  have h5 := h4.silent (.insert (t := 1) (cl := .append 1 20) (kb := [1]) (pb := posEnc 1) (q := .done (.done (.ok ()))) rfl)
  have h6 := h5.silent (.insert (t := 0) (cl := .append 1 10) (kb := [1]) (pb := posEnc 0) (q := .done (.done (.ok ()))) rfl)
  have h7 := h6.event (.answer (t := 1) (cl := .append 1 20) (r := .done (.ok ())) rfl)
  have h8 := same_places (h7.event (.answer (t := 0) (cl := .append 1 10) (r := .done (.ok ())) rfl)) (x := .idle) (y := .idle) rfl rfl
  have h8 : Exec (SStep Params.code cborCodec sys true) (sinit 2 ⟨freshMem, [], true⟩) (overtaken.take 4)
      ⟨cinit 2 bothStored, [([1], posEnc 0), ([1], posEnc 1)], fun t => if t = 0 then .idle else .idle⟩ := h8
  -- the reads
  have h9 := h8.event (.invoke (t := 0) (cl := .get 1) rfl)
  have h10 := same_places (h9.silent (.lookup (t := 0) (cl := .get 1) (kb := [1]) rfl)) (y := .idle)
    (x := .at_ (.get 1) (.log (.get 0) (fun r => .done (.value (itemResult (item cborCodec (recordOf r))))))) key_found rfl
  have h11 := h10.append (read_run bothStored _ _ 0 (.get 1) 0 _ rfl _ both_reads.1)
  have h12 := same_places (h11.event (.answer (t := 0) (cl := .get 1) (r := .value (.ok (some 10))) rfl)) (x := .idle) (y := .idle) rfl rfl
  have h13 := h12.event (.invoke (t := 1) (cl := .item 0) rfl)
  have h14 := h13.append (read_run bothStored _ _ 1 (.item 0) 0 _ rfl _ both_reads.1)
  have h15 := same_places (h14.event (.answer (t := 1) (cl := .item 0) (r := .item (some (.ok 10))) rfl)) (x := .idle) (y := .idle) rfl rfl
  have h16 := h15.event (.invoke (t := 1) (cl := .item 1) rfl)
  have h17 := h16.append (read_run bothStored _ _ 1 (.item 1) 1 _ rfl _ both_reads.2.1)
  have h18 := same_places (h17.event (.answer (t := 1) (cl := .item 1) (r := .item (some (.ok 20))) rfl)) (x := .idle) (y := .idle) rfl rfl
  have h19 := h18.event (.invoke (t := 1) (cl := .last) rfl)
  have h20 := h19.append (len_run bothStored _ _ 1 .last _ rfl _ both_reads.2.2)
  have h21 := h20.append (len_run bothStored _ _ 1 .last _ rfl _ both_reads.2.2)
  have h22 := h21.append (read_run bothStored _ _ 1 .last 1 _ rfl _ both_reads.2.1)
  have h23 := same_places (h22.event (.answer (t := 1) (cl := .last) (r := .value (.ok (some 20))) rfl)) (x := .idle) (y := .idle) rfl rfl
  exact ⟨_, ⟨⟨freshMem, [], true⟩, rfl, h23⟩, fun t => match t with | 0 => rfl | 1 => rfl⟩

/-- Appends that overlap, under different keys, and a read of the first one. -/
def crossed : List (SEv 2 Nat Nat) :=
  [] ++ .inv 0 (.append 1 10) :: ([.inv 1 (.append 2 20), .ret 1 (.append 2 20) (.done (.ok ()))] ++
    .ret 0 (.append 1 10) (.done (.ok ())) :: ([] ++ .inv 1 (.get 1) :: ([] ++ .ret 1 (.get 1) (.value (.ok (some 10))) :: [])))

/-- The run exists and meets the hypotheses of `C58_last_write` and `C58_latest_partial`. -/
example : (∃ s, SharedBy Params.code sys cborCodec false true [] 2 crossed s ∧ ∀ t, s.pcs t = .idle) ∧ SFits cborCodec [] crossed ∧
    Apart 1 crossed ∧ acked crossed = [(2, 20), (1, 10)] := by
  have h0 : Exec (SStep Params.code cborCodec sys true) (sinit 2 ⟨freshMem, [], true⟩) [] _ := .nil
  have h1 := h0.event (.invoke (t := 0) (cl := .append 1 10) rfl)
  have h2 := h1.event (.invoke (t := 1) (cl := .append 2 20) rfl)
  have h3 := same_places (h2.append (store_run freshMem [] _ 0 (.append 1 10) [10] _ rfl rfl (by decide +kernel) (by decide +kernel)
    0 rfl)) (x := unrecorded 1 10 0) rfl rfl
  have h4 := same_places (h3.append (store_run (withRecord freshMem [10]) [] _ 1 (.append 2 20) [20] _ rfl rfl (by decide +kernel)
    (by decide +kernel) 1 (by decide +kernel))) (y := unrecorded 2 20 1) rfl rfl
  have h5 := h4.silent (.insert (t := 1) (cl := .append 2 20) (kb := [2]) (pb := posEnc 1) (q := .done (.done (.ok ()))) rfl)
  have h6 := h5.silent (.insert (t := 0) (cl := .append 1 10) (kb := [1]) (pb := posEnc 0) (q := .done (.done (.ok ()))) rfl)
  have h7 := h6.event (.answer (t := 1) (cl := .append 2 20) (r := .done (.ok ())) rfl)
  have h8 := same_places (h7.event (.answer (t := 0) (cl := .append 1 10) (r := .done (.ok ())) rfl)) (x := .idle) (y := .idle) rfl rfl
  have h8 : Exec (SStep Params.code cborCodec sys true) (sinit 2 ⟨freshMem, [], true⟩) (crossed.take 4)
      ⟨cinit 2 bothStored, [([1], posEnc 0), ([2], posEnc 1)], fun t => if t = 0 then .idle else .idle⟩ := h8
  have h9 := h8.event (.invoke (t := 1) (cl := .get 1) rfl)
  have h10 := same_places (h9.silent (.lookup (t := 1) (cl := .get 1) (kb := [1]) rfl)) (x := .idle)
    (y := .at_ (.get 1) (.log (.get 0) (fun r => .done (.value (itemResult (item cborCodec (recordOf r))))))) rfl key_found
  have h11 := h10.append (read_run bothStored _ _ 1 (.get 1) 0 _ rfl _ both_reads.1)
  have h12 := same_places (h11.event (.answer (t := 1) (cl := .get 1) (r := .value (.ok (some 10))) rfl)) (x := .idle) (y := .idle) rfl rfl
  refine ⟨⟨_, ⟨⟨freshMem, [], true⟩, rfl, h12⟩, fun t => match t with | 0 => rfl | 1 => rfl⟩, ⟨?_, by decide⟩, ?_, rfl⟩
  · intro e he
    simp only [crossed, List.nil_append, List.cons_append, List.mem_cons, List.not_mem_nil, or_false] at he
    rcases he with rfl | rfl | rfl | rfl | rfl | rfl <;> simp [SEv.small, SCall.small]
  · intro a u v b hab w hw
    cases a with
    | nil => obtain ⟨a, v', b', h, _⟩ := hw; simp at h
    | cons x a =>
      have hm : SEv.inv u (.append 1 v) ∈ crossed.tail := by rw [hab]; simp
      simp [crossed] at hm

/-- The system refuses the append of one thread; the same append by another thread is stored. -/
def rejected : List (SEv 2 Nat Nat) :=
  [.inv 0 (.append 1 10), .ret 0 (.append 1 10) (.done (.error (.storage .mmap))), .inv 1 (.append 1 10),
   .ret 1 (.append 1 10) (.done (.ok ()))]

/-- The run exists if the system may refuse, and meets the hypotheses of the theorems above. -/
example : (∃ s, SharedBy Params.code true cborCodec false true [] 2 rejected s ∧ ∀ t, s.pcs t = .idle) ∧
    SFits cborCodec [] rejected ∧ acked rejected = [(1, 10)] := by
  have h0 : Exec (SStep Params.code cborCodec true true) (sinit 2 ⟨freshMem, [], true⟩) [] _ := .nil
  have h1 := h0.event (.invoke (t := 0) (cl := .append 1 10) rfl)
  have h2 := h1.append (run_refused (sys := true) (t := 0) (cl := .append 1 10) (b := [[10]]) (e := .mmap) (ft := { map := true }) rfl
    rfl rfl (by simp) rfl (.inr ⟨rfl, rfl, rfl, rfl⟩) (pair_eq (by decide +kernel)))
  have h3 := h2.event (.answer (t := 0) (cl := .append 1 10) (r := .done (.error (.storage .mmap))) rfl)
  have h4 := h3.event (.invoke (t := 1) (cl := .append 1 10) rfl)
  have h5 := h4.append (run_append (t := 1) (cl := .append 1 10) (b := [[10]]) rfl rfl rfl (by simp) rfl
    (pair_eq (by decide +kernel)) (pair_eq (by decide +kernel)))
  have h6 := h5.silent (.insert (t := 1) (cl := .append 1 10) (kb := [1]) (pb := posEnc 0) (q := .done (.done (.ok ()))) rfl)
  have h7 := h6.event (.answer (t := 1) (cl := .append 1 10) (r := .done (.ok ())) rfl)
  refine ⟨⟨_, ⟨⟨freshMem, [], true⟩, rfl, h7⟩, fun t => match t with | 0 => rfl | 1 => rfl⟩, ⟨?_, by decide⟩, rfl⟩
  intro e he
  simp only [rejected, List.mem_cons, List.not_mem_nil, or_false] at he
  rcases he with rfl | rfl | rfl | rfl <;> simp [SEv.small, SCall.small]

/-- The run of `C58_latest_false` meets the hypotheses of the theorems above. -/
example : 16 ∣ Params.code.minMmap ∧ cborCodec.Lawful ∧ SFits cborCodec [] overtaken ∧ acked overtaken = [(1, 20), (1, 10)] ∧
    kvEvents overtaken = overtaken.take 6 ∧ (lgEvents overtaken).length = 8 := by
  refine ⟨by decide, cborCodec_lawful, ⟨?_, by decide⟩, rfl, rfl, rfl⟩
  intro e he
  simp only [overtaken, List.mem_cons, List.not_mem_nil, or_false] at he
  rcases he with rfl | rfl | rfl | rfl | rfl | rfl | rfl | rfl | rfl | rfl | rfl | rfl <;> simp [SEv.small, SCall.small]

end Verif.Props
