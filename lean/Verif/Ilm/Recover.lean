import Verif.Fraos.Recover
import Verif.Ilm.Lemmas

/-!
# Maps whose appends fail in any way

After an append that failed because the system failed the log, the handle is given up: the directory is closed
or the process dies, and the directory is opened again. Until then the program may read.
-/

namespace Verif.Ilm

open Verif.Fraos

variable {K V : Type}

/-- A call, an append during which the operating system fails as given (`fk`: it fails the key index), or the
death of the process between calls followed by a new process opening the directory. -/
inductive AOp (K V : Type) where
  | call (op : MOp K V)
  | failing (fd fi : Faults) (fk : Bool) (k : K) (v : V)
  | die (lost : Nat) (indexed : Bool)

/-- One step of the model. Death leaves the files of the log as they are (nothing is cut, compare
database.rs:164-169); of the key index the last `lost` insertions were not yet on disk. -/
def aStep (p : Params) (c : Codec K V) (m : ILM) (its : List Nat) : AOp K V → MResp V × ILM × List Nat
  | .call op => mStep p c true m its op
  | .failing fd fi fk k v =>
    (.done (appendWith p c m fd fi fk k v).1, (appendWith p c m fd fi fk k v).2, its)
  | .die lost indexed =>
    match DB.openDB p m.db.data.g.file m.db.idx.g.file true with
    | .error e => (.opened (.error e), m, [])
    | .ok db => (.opened (.ok ()), ⟨db, m.journal.drop lost, indexed⟩, [])

/-- The history with the answers of the model. -/
def aTrace (p : Params) (c : Codec K V) : ILM → List Nat → List (AOp K V) → List (AOp K V × MResp V)
  | _, _, [] => []
  | m, its, op :: ops =>
    (op, (aStep p c m its op).1) :: aTrace p c (aStep p c m its op).2.1 (aStep p c m its op).2.2 ops

/-- Was an append answered with an error of the log? -/
def MResp.failed : MResp V → Bool
  | .done (.error (.storage _)) => true
  | _ => false

/-- The user is prudent: after an append was answered with an error of the log they append nothing more before
the directory has been opened again. `lost`: such an error has been seen since the directory was opened. -/
def MPrudent : Bool → List (AOp K V × MResp V) → Prop
  | _, [] => True
  | _, (.die _ _, _) :: t => MPrudent false t
  | _, (.call (.reopen _), _) :: t => MPrudent false t
  | lost, (.call (.append _ _), r) :: t => lost = false ∧ MPrudent r.failed t
  | lost, (.failing _ _ _ _ _, r) :: t => lost = false ∧ MPrudent r.failed t
  | lost, (.call _, _) :: t => MPrudent lost t

/-- What a prudent user may rely on. `s` is what the next opening shows. -/
def MRecovers [DecidableEq K] (c : Codec K V) : Trust → MSpec K V → List (AOp K V × MResp V) → Prop
  | _, _, [] => True
  -- the process dies: opening succeeds; of the index the newest insertions may be missing
  | _, s, (.die lost indexed, r) :: t =>
    r = .opened (.ok ()) ∧ MRecovers c .sound ⟨s.log, s.journal.drop lost, indexed, []⟩ t
  | .sound, s, (.call op, r) :: t =>
    r = (mSpecStep c true s op).1 ∧ MRecovers c .sound (mSpecStep c true s op).2 t
  | .sound, s, (.failing fd fi fk k v, r) :: t =>
    -- the append is made, or refused because of the arguments
    (r = (mSpecStep c true s (.append k v)).1 ∧ (fk = true → r ≠ .done (.ok ())) ∧
      MRecovers c .sound (mSpecStep c true s (.append k v)).2 t) ∨
    -- the key could not be recorded: the value is in the log, but not under its key
    (fk = true ∧ r = .done (.error .index) ∧ MRecovers c .sound { s with log := s.log ++ [(k, v)] } t) ∨
    -- the log failed: the value is in it or not, and the key is not recorded
    (∃ e, r = .done (.error (.storage e)) ∧ ∃ log', (log' = s.log ∨ log' = s.log ++ [(k, v)]) ∧
      (MRecovers c (.pending s.log.length) { s with log := log' } t ∨
        (fd.protect = true ∨ fi.protect = true) ∧ MRecovers c .broken { s with log := log' } t))
  | .pending n, s, (.call op, r) :: t =>
    match op with
    | .append _ _ => True
    | .reopen ix => r = .opened (.ok ()) ∧ MRecovers c .sound ⟨s.log, s.journal, ix, []⟩ t
    -- `last` is the last acknowledged value
    | .last => r = .value (.ok ((s.log.take n).getLast?.map Prod.snd)) ∧ MRecovers c (.pending n) s t
    | op => r = (mSpecStep c true s op).1 ∧ MRecovers c (.pending n) (mSpecStep c true s op).2 t
  | .broken, s, (.call (.reopen ix), r) :: t => r = .opened (.ok ()) ∧ MRecovers c .sound ⟨s.log, s.journal, ix, []⟩ t
  | trust, s, _ :: t => MRecovers c trust s t

/-- Bytes of a step. -/
def AOp.bytes (c : Codec K V) : AOp K V → Nat
  | .call op => op.bytes c
  | .failing _ _ _ _ v => ((c.encV v).getD []).length
  | .die _ _ => 0

/-! ### Lemmas -/

theorem mReads_same (p : Params) (c : Codec K V) (m : ILM) (its : List Nat) (op : MOp K V) (h : op.Reads) :
    (mStep p c true m its op).2.1 = m := by
  cases op with
  | append k v => exact h.elim
  | reopen ix => exact h.elim
  | iterFrom k => simp only [mStep]; split <;> rfl
  | next it => simp only [mStep]; split <;> rfl
  | _ => rfl

theorem Live.next_eq {p : Params} {db db' : DB} (hd : db'.data.g = db.data.g) (hi : db'.idx.g = db.idx.g) (i : Nat) :
    db.next p i = db'.next p i := by
  unfold DB.next
  rw [getEntry_g hi]
  split
  · rfl
  · rfl
  · rw [getRecord_g hd]

/-- Reads but `last` look only at the mappings. -/
theorem mReads_eq {p : Params} {c : Codec K V} {m : ILM} {db' : DB} (h : ∀ i, m.db.next p i = db'.next p i)
    (its : List Nat) (op : MOp K V) (hop : op.Reads) (hl : op ≠ .last) :
    (mStep p c true m its op).1 = (mStep p c true { m with db := db' } its op).1 ∧
    (mStep p c true m its op).2.2 = (mStep p c true { m with db := db' } its op).2.2 := by
  have hn : ∀ i, next p c m i = next p c { m with db := db' } i := by
    intro i; simp only [Ilm.next, h]
  have hf : ∀ k, iterFrom c m k = iterFrom c { m with db := db' } k := fun k => rfl
  have hg : ∀ k, get p c m k = get p c { m with db := db' } k := by
    intro k; simp only [Ilm.get, hn, hf k]
  cases op with
  | append k v => exact hop.elim
  | reopen ix => exact hop.elim
  | last => exact absurd rfl hl
  | get k => simp only [mStep, hg]; exact ⟨trivial, trivial⟩
  | contains k => simp only [mStep, contains, hg]; exact ⟨trivial, trivial⟩
  | isEmpty => exact ⟨rfl, rfl⟩
  | iter => exact ⟨rfl, rfl⟩
  | iterFrom k =>
    simp only [mStep, hf k]
    split <;> exact ⟨rfl, rfl⟩
  | next it =>
    simp only [mStep, hn]
    split <;> exact ⟨rfl, rfl⟩
  | getNext k =>
    have : getNext p c m k = getNext p c { m with db := db' } k := by
      cases k with
      | none => simp only [getNext, hn]
      | some k => simp only [getNext, hn, hf k]
    simp only [mStep, this]
    exact ⟨trivial, trivial⟩

/-- A map whose log has failed: what the next opening finds. -/
structure MLost (p : Params) (c : Codec K V) (m : ILM) (s : MSpec K V) (used : Nat) : Prop where
  lost : Lost p m.db (records c s.log) used
  encV : ∀ x ∈ s.log, (c.encV x.2).isSome
  jr : m.journal = s.journal.map (fun x => ((c.encK x.1).getD [], posEnc x.2))
  encK : ∀ x ∈ s.journal, (c.encK x.1).isSome
  ok : ∀ x ∈ s.journal, ∃ v, s.log[x.2]? = some (x.1, v)
  indexed : m.indexed = s.indexed

theorem MLost.its {p : Params} {c : Codec K V} {m : ILM} {s s' : MSpec K V} {used : Nat} (h : MLost p c m s used)
    (h1 : s'.log = s.log) (h2 : s'.journal = s.journal) (h3 : s'.indexed = s.indexed) : MLost p c m s' used := by
  obtain ⟨log, journal, indexed, its⟩ := s
  obtain ⟨log', journal', indexed', its'⟩ := s'
  simp only at h1 h2 h3
  subst h1 h2 h3
  exact ⟨h.lost, h.encV, h.jr, h.encK, h.ok, h.indexed⟩

theorem MLost.more {p : Params} {c : Codec K V} {m : ILM} {s : MSpec K V} {u u' : Nat} (h : MLost p c m s u)
    (hu : u ≤ u') : MLost p c m s u' :=
  ⟨h.lost.more hu, h.encV, h.jr, h.encK, h.ok, h.indexed⟩

theorem MLost.opened {p : Params} {c : Codec K V} {m : ILM} {s : MSpec K V} {used lost : Nat} {ix : Bool}
    (h : MLost p c m s used) {db : DB} (hg : Good p true db (records c s.log) used) :
    MRel p c true ⟨db, m.journal.drop lost, ix⟩ ⟨s.log, s.journal.drop lost, ix, []⟩ used :=
  ⟨hg, h.encV, by simp only [h.jr, List.map_drop], fun x hx => h.encK x (List.mem_of_mem_drop hx),
    fun x hx => h.ok x (List.mem_of_mem_drop hx), rfl, by simp⟩

theorem MLost.reopen {p : Params} {c : Codec K V} {m : ILM} {s : MSpec K V} {used : Nat} (h : MLost p c m s used)
    (its : List Nat) (ix : Bool) :
    ∃ m1, mStep p c true m its (.reopen ix) = (.opened (.ok ()), m1, []) ∧
      MRel p c true m1 ⟨s.log, s.journal, ix, []⟩ used := by
  obtain ⟨db1, e, hg⟩ := h.lost.reopen
  refine ⟨⟨db1, m.journal, ix⟩, ?_, ?_⟩
  · simp only [mStep, Ilm.reopen, e, if_true]
  · simpa using h.opened (lost := 0) (ix := ix) hg

theorem MLost.die {p : Params} {c : Codec K V} {m : ILM} {s : MSpec K V} {used : Nat} (h : MLost p c m s used)
    (its : List Nat) (lost : Nat) (ix : Bool) :
    ∃ m1, aStep p c m its (.die lost ix) = (.opened (.ok ()), m1, []) ∧
      MRel p c true m1 ⟨s.log, s.journal.drop lost, ix, []⟩ used := by
  obtain ⟨db1, e, hg⟩ := h.lost.die
  refine ⟨⟨db1, m.journal.drop lost, ix⟩, ?_, h.opened hg⟩
  simp only [aStep, e]

theorem MRel.die {p : Params} (hm : p.minMmap < 2 ^ 62) {c : Codec K V} {m : ILM} {s : MSpec K V} {used : Nat}
    (h : MRel p c true m s used) (hfit : used < 2 ^ 59) (its : List Nat) (lost : Nat) (ix : Bool) :
    ∃ m1, aStep p c m its (.die lost ix) = (.opened (.ok ()), m1, []) ∧
      MRel p c true m1 ⟨s.log, s.journal.drop lost, ix, []⟩ used := by
  obtain ⟨db1, e, hg⟩ := h.good.die hm hfit
  refine ⟨⟨db1, m.journal.drop lost, ix⟩, ?_, hg, h.encV, by simp only [h.jr, List.map_drop],
    fun x hx => h.encK x (List.mem_of_mem_drop hx), fun x hx => h.ok x (List.mem_of_mem_drop hx), rfl, by simp⟩
  simp only [aStep, e]

/-- What the handle shows meanwhile. -/
structure MLive (p : Params) (c : Codec K V) (m : ILM) (s : MSpec K V) (n : Nat) : Prop where
  live : Live m.db (records c s.log) n
  its : ∀ i ∈ s.its, i ≤ s.log.length

/-- Reading between a failed append and the next opening. -/
theorem MLive.read [DecidableEq K] {p : Params} {c : Codec K V} (hc : c.Lawful) {m : ILM} {s : MSpec K V}
    {n used : Nat} (hl : MLive p c m s n) (h : MLost p c m s used) (op : MOp K V) (hop : op.Reads) (hlast : op ≠ .last) :
    (mStep p c true m s.its op).1 = (mSpecStep c true s op).1 ∧
    (mStep p c true m s.its op).2.1 = m ∧
    (mStep p c true m s.its op).2.2 = (mSpecStep c true s op).2.its ∧
    MLive p c m (mSpecStep c true s op).2 n ∧ MLost p c m (mSpecStep c true s op).2 used := by
  obtain ⟨db', es, C, hinv, hd, hi⟩ := hl.live.ex
  have hv : MView c { m with db := db' } s :=
    ⟨⟨es, C, hinv⟩, h.encV, h.jr, h.encK, h.ok, h.indexed, hl.its⟩
  obtain ⟨h1, h2, h3, h4, h5⟩ := hv.step (p := p) hc true op hop
  obtain ⟨e1, e2⟩ := mReads_eq (c := c) (p := p) (m := m) (fun i => Live.next_eq (p := p) hd hi i) s.its op hop hlast
  refine ⟨by rw [e1, h1], mReads_same p c m s.its op hop, by rw [e2, h3], ⟨by rw [h4]; exact hl.live, h5.its⟩,
    ⟨by rw [h4]; exact h.lost, h5.encV, h5.jr, h5.encK, h5.ok, h5.indexed⟩⟩

theorem MLive.last {p : Params} {c : Codec K V} (hc : c.Lawful) {m : ILM} {s : MSpec K V} {n used : Nat}
    (hl : MLive p c m s n) (h : MLost p c m s used) :
    Ilm.last p c m = .ok ((s.log.take n).getLast?.map Prod.snd) := by
  have := (hl.live.answers (p := p) (op := .last) trivial rfl).1
  simp only [step, Resp.record.injEq] at this
  unfold Ilm.last
  rw [this]
  have hr : ((records c s.log).take n).getLast? = (s.log.take n).getLast?.map (fun x => (c.encV x.2).getD []) := by
    simp [records, ← List.map_take]
  rw [hr]
  cases hx : (s.log.take n).getLast? with
  | none => rfl
  | some x =>
    have hm : x ∈ s.log := List.mem_of_mem_take (List.mem_of_getLast? hx)
    obtain ⟨bs, hbs⟩ := Option.isSome_iff_exists.mp (h.encV x hm)
    simp only [Option.map_some, hbs, Option.getD_some, hc.back _ _ hbs]

/-- An append during which anything may fail. -/
theorem MRel.append_any [DecidableEq K] {p : Params} (hp : 16 ∣ p.minMmap) (hm : p.minMmap < 2 ^ 62) {c : Codec K V}
    (hc : c.Lawful) {m : ILM} {s : MSpec K V} {used : Nat} (h : MRel p c true m s used) (fd fi : Faults) (fk : Bool)
    (k : K) (v : V) (hfit : used + ((c.encV v).getD []).length < 2 ^ 59) :
    ∃ r m1, appendWith p c m fd fi fk k v = (r, m1) ∧
    ((.done r = (mSpecStep c true s (.append k v)).1 ∧ (fk = true → r ≠ .ok ()) ∧
        (MResp.done r : MResp V).failed = false ∧ (mSpecStep c true s (.append k v)).2.its = s.its ∧
        MRel p c true m1 (mSpecStep c true s (.append k v)).2 (used + ((c.encV v).getD []).length)) ∨
      (fk = true ∧ r = .error .index ∧
        MRel p c true m1 { s with log := s.log ++ [(k, v)] } (used + ((c.encV v).getD []).length)) ∨
      (∃ e, r = .error (.storage e) ∧ ∃ log', (log' = s.log ∨ log' = s.log ++ [(k, v)]) ∧
        MLost p c m1 { s with log := log' } (used + ((c.encV v).getD []).length) ∧
        (MLive p c m1 { s with log := log' } s.log.length ∨ fd.protect = true ∨ fi.protect = true))) := by
  have hmore : MRel p c true m s (used + ((c.encV v).getD []).length) :=
    ⟨h.good.more (by omega), h.encV, h.jr, h.encK, h.ok, h.indexed, h.its⟩
  by_cases hidx : s.indexed = true
  swap
  · refine ⟨.error .noIndex, m, by simp [appendWith, h.indexed, hidx], .inl ⟨?_, by simp, rfl, ?_, ?_⟩⟩
    · simp [mSpecStep, hidx]
    · simp [mSpecStep, hidx]
    · simpa [mSpecStep, hidx] using hmore
  by_cases henc : (c.encK k).isSome ∧ (c.encV v).isSome
  swap
  · refine ⟨.error .encode, m, ?_, .inl ⟨?_, by simp, rfl, ?_, ?_⟩⟩
    · simp only [appendWith, h.indexed, hidx, if_true]
      cases hk : c.encK k with
      | none => rfl
      | some kb =>
        cases hv : c.encV v with
        | none => rfl
        | some vb => exact absurd (by simp [hk, hv]) henc
    · simp [mSpecStep, hidx, henc]
    · simp [mSpecStep, hidx, henc]
    · simpa [mSpecStep, hidx, henc] using hmore
  obtain ⟨kb, hk⟩ := Option.isSome_iff_exists.mp henc.1
  obtain ⟨vb, hv⟩ := Option.isSome_iff_exists.mp henc.2
  have hne : vb ≠ [] := by rintro rfl; exact hc.some_ v hv
  simp only [hv, Option.getD_some] at hfit ⊢
  have hrec : records c (s.log ++ [(k, v)]) = records c s.log ++ [vb] := by simp [records, hv]
  have hencV : ∀ x ∈ s.log ++ [(k, v)], (c.encV x.2).isSome := by
    intro x hx
    rcases List.mem_append.mp hx with hx | hx
    · exact h.encV x hx
    · simp only [List.mem_singleton] at hx; subst hx; simp [hv]
  have hok : ∀ x ∈ s.journal, ∃ w, (s.log ++ [(k, v)])[x.2]? = some (x.1, w) := by
    intro x hx
    obtain ⟨w, hw⟩ := h.ok x hx
    exact ⟨w, by rw [List.getElem?_append_left (List.getElem?_eq_some_iff.mp hw).1]; exact hw⟩
  have hits : ∀ i ∈ s.its, i ≤ (s.log ++ [(k, v)]).length := by
    intro i hi
    have := h.its i hi
    simp only [List.length_append, List.length_singleton]; omega
  rcases Fraos.append_any hp hm h.good fd fi (batch := [vb]) (by simp) (by simpa using hne) (by simpa using hfit) with
    ⟨db1, e, hg⟩ | ⟨er, db1, e, log', hlog, hlost, hlive⟩
  · have hg' : Good p true db1 (records c (s.log ++ [(k, v)])) (used + vb.length) := by
      rw [hrec]; simpa using hg
    cases fk with
    | true =>
      exact ⟨.error .index, ⟨db1, m.journal, m.indexed⟩, by simp [appendWith, h.indexed, hidx, hk, hv, e],
        .inr (.inl ⟨rfl, rfl, hg', hencV, h.jr, h.encK, hok, h.indexed, hits⟩)⟩
    | false =>
      refine ⟨.ok (), ⟨db1, (kb, posEnc s.log.length) :: m.journal, m.indexed⟩,
        by simp [appendWith, h.indexed, hidx, hk, hv, e, records], .inl ⟨?_, by simp, rfl, ?_, ?_⟩⟩
      · simp [mSpecStep, hidx, hk, hv]
      · simp [mSpecStep, hidx, hk, hv]
      · have : (mSpecStep c true s (.append k v)).2 =
            { s with log := s.log ++ [(k, v)], journal := (k, s.log.length) :: s.journal } := by
          simp [mSpecStep, hidx, hk, hv]
        rw [this]
        refine ⟨hg', hencV, by simp [hk, h.jr], ?_, ?_, h.indexed, hits⟩
        · intro x hx
          rcases List.mem_cons.mp hx with hx | hx
          · subst hx; simp [hk]
          · exact h.encK x hx
        · intro x hx
          rcases List.mem_cons.mp hx with hx | hx
          · subst hx; exact ⟨v, by simp⟩
          · exact hok x hx
  · refine ⟨.error (.storage er), ⟨db1, m.journal, m.indexed⟩, by simp [appendWith, h.indexed, hidx, hk, hv, e],
      .inr (.inr ⟨er, rfl, ?_⟩)⟩
    have hlen : (records c s.log).length = s.log.length := by simp [records]
    rw [hlen] at hlive
    simp only [List.map_cons, List.map_nil, List.sum_cons, List.sum_nil, Nat.add_zero] at hlost
    rcases hlog with rfl | rfl
    · refine ⟨s.log, .inl rfl, ⟨hlost, h.encV, h.jr, h.encK, h.ok, h.indexed⟩, ?_⟩
      rcases hlive with hl | hl
      · exact .inl ⟨hl, h.its⟩
      · exact .inr hl
    · refine ⟨s.log ++ [(k, v)], .inr rfl, ⟨by rw [hrec]; exact hlost, hencV, h.jr, h.encK, hok, h.indexed⟩, ?_⟩
      rcases hlive with hl | hl
      · exact .inl ⟨by simp only; rw [hrec]; exact hl, hits⟩
      · exact .inr hl

theorem aTrace_recovers [DecidableEq K] {p : Params} (hp : 16 ∣ p.minMmap) (hm : p.minMmap < 2 ^ 62) {c : Codec K V}
    (hc : c.Lawful) (ops : List (AOp K V)) {m : ILM} {s : MSpec K V} {used : Nat}
    (hfit : used + (ops.map (AOp.bytes c)).sum < 2 ^ 59) :
    (MRel p c true m s used → MPrudent false (aTrace p c m s.its ops) →
      MRecovers c .sound s (aTrace p c m s.its ops)) ∧
    (∀ its, MLost p c m s used → MPrudent true (aTrace p c m its ops) →
      MRecovers c .broken s (aTrace p c m its ops)) ∧
    (∀ n, MLost p c m s used → MLive p c m s n → MPrudent true (aTrace p c m s.its ops) →
      MRecovers c (.pending n) s (aTrace p c m s.its ops)) := by
  induction ops generalizing m s used with
  | nil => exact ⟨fun _ _ => by simp [aTrace, MRecovers], fun _ _ _ => by simp [aTrace, MRecovers],
      fun _ _ _ _ => by simp [aTrace, MRecovers]⟩
  | cons op ops ih =>
    simp only [List.map_cons, List.sum_cons] at hfit
    refine ⟨fun h hpr => ?_, fun its h hpr => ?_, fun n h hl hpr => ?_⟩
    · cases op with
      | die lost ix =>
        obtain ⟨m1, e, hr⟩ := h.die hm (by omega) s.its lost ix
        simp only [aTrace, e, MPrudent, MRecovers] at hpr ⊢
        exact ⟨trivial, (ih (by omega)).1 hr hpr⟩
      | call op =>
        simp only [AOp.bytes] at hfit
        obtain ⟨e1, e2, hr⟩ := h.step hp hc op (by omega)
        simp only [aTrace, aStep, MRecovers] at hpr ⊢
        rw [e2] at hpr ⊢
        refine ⟨e1, (ih (by omega)).1 hr ?_⟩
        cases op with
        | append k v =>
          simp only [MPrudent] at hpr
          have : ((mSpecStep c true s (.append k v)).1).failed = false := by
            simp only [mSpecStep]
            split
            · split <;> rfl
            · rfl
          rw [e1, this] at hpr
          exact hpr.2
        | _ => simpa only [MPrudent] using hpr
      | failing fd fi fk k v =>
        simp only [AOp.bytes] at hfit
        obtain ⟨r, m1, e, hcase⟩ := h.append_any hp hm hc fd fi fk k v (by omega)
        simp only [aTrace, aStep, e, MRecovers, MPrudent] at hpr ⊢
        rcases hcase with ⟨h1, h2, h3, h4, hr⟩ | ⟨h1, rfl, hr⟩ | ⟨er, rfl, log', hlog, hlost, hlive⟩
        · left
          rw [h3, ← h4] at hpr
          refine ⟨h1, fun hf hcon => h2 hf (by simpa using hcon), ?_⟩
          rw [← h4]
          exact (ih (by omega)).1 hr hpr.2
        · right; left
          exact ⟨h1, rfl, (ih (s := { s with log := s.log ++ [(k, v)] }) (by omega)).1 hr hpr.2⟩
        · right; right
          refine ⟨er, rfl, log', hlog, ?_⟩
          rcases hlive with hlive | hlive
          · exact .inl ((ih (s := { s with log := log' }) (by omega)).2.2 _ hlost hlive hpr.2)
          · exact .inr ⟨hlive, (ih (s := { s with log := log' }) (by omega)).2.1 _ hlost hpr.2⟩
    · cases op with
      | die lost ix =>
        obtain ⟨m1, e, hr⟩ := h.die its lost ix
        simp only [aTrace, e, MPrudent, MRecovers] at hpr ⊢
        exact ⟨trivial, (ih (by omega)).1 hr hpr⟩
      | failing fd fi fk k v => simp [aTrace, MPrudent] at hpr
      | call op =>
        have hread : ∀ o : MOp K V, o.Reads → (mStep p c true m its o).2.1 = m ∧
            (MPrudent true (aTrace p c (mStep p c true m its o).2.1 (mStep p c true m its o).2.2 ops) →
              MRecovers c .broken s (aTrace p c (mStep p c true m its o).2.1 (mStep p c true m its o).2.2 ops)) := by
          intro o ho
          have e := mReads_same p c m its o ho
          rw [e]
          exact ⟨rfl, fun hpr => (ih (used := used) (by omega)).2.1 _ h hpr⟩
        cases op with
        | append k v => simp [aTrace, MPrudent] at hpr
        | reopen ix =>
          obtain ⟨m1, e, hr⟩ := h.reopen its ix
          simp only [aTrace, aStep, e, MPrudent, MRecovers] at hpr ⊢
          exact ⟨trivial, (ih (by omega)).1 hr hpr⟩
        | last =>
          simp only [aTrace, aStep, MRecovers]
          exact (hread (.last) trivial).2 (by simpa only [aTrace, aStep, MPrudent] using hpr)
        | get k =>
          simp only [aTrace, aStep, MRecovers]
          exact (hread (.get k) trivial).2 (by simpa only [aTrace, aStep, MPrudent] using hpr)
        | contains k =>
          simp only [aTrace, aStep, MRecovers]
          exact (hread (.contains k) trivial).2 (by simpa only [aTrace, aStep, MPrudent] using hpr)
        | isEmpty =>
          simp only [aTrace, aStep, MRecovers]
          exact (hread (.isEmpty) trivial).2 (by simpa only [aTrace, aStep, MPrudent] using hpr)
        | iter =>
          simp only [aTrace, aStep, MRecovers]
          exact (hread (.iter) trivial).2 (by simpa only [aTrace, aStep, MPrudent] using hpr)
        | iterFrom k =>
          simp only [aTrace, aStep, MRecovers]
          exact (hread (.iterFrom k) trivial).2 (by simpa only [aTrace, aStep, MPrudent] using hpr)
        | next it =>
          simp only [aTrace, aStep, MRecovers]
          exact (hread (.next it) trivial).2 (by simpa only [aTrace, aStep, MPrudent] using hpr)
        | getNext k =>
          simp only [aTrace, aStep, MRecovers]
          exact (hread (.getNext k) trivial).2 (by simpa only [aTrace, aStep, MPrudent] using hpr)
    · cases op with
      | die lost ix =>
        obtain ⟨m1, e, hr⟩ := h.die s.its lost ix
        simp only [aTrace, e, MPrudent, MRecovers] at hpr ⊢
        exact ⟨trivial, (ih (by omega)).1 hr hpr⟩
      | failing fd fi fk k v => simp [aTrace, MPrudent] at hpr
      | call op =>
        have hread : ∀ o : MOp K V, o.Reads → o ≠ .last →
            MPrudent true (aTrace p c (mStep p c true m s.its o).2.1 (mStep p c true m s.its o).2.2 ops) →
              (mStep p c true m s.its o).1 = (mSpecStep c true s o).1 ∧
              MRecovers c (.pending n) (mSpecStep c true s o).2
                (aTrace p c (mStep p c true m s.its o).2.1 (mStep p c true m s.its o).2.2 ops) := by
          intro o ho hne hpr
          obtain ⟨h1, h2, h3, h4, h5⟩ := hl.read hc h o ho hne
          rw [h2, h3] at hpr ⊢
          exact ⟨h1, (ih (by omega)).2.2 n h5 h4 hpr⟩
        cases op with
        | append k v => simp [aTrace, MPrudent] at hpr
        | reopen ix =>
          obtain ⟨m1, e, hr⟩ := h.reopen s.its ix
          simp only [aTrace, aStep, e, MPrudent, MRecovers] at hpr ⊢
          exact ⟨trivial, (ih (by omega)).1 hr hpr⟩
        | last =>
          simp only [aTrace, aStep, mStep, MPrudent, MRecovers] at hpr ⊢
          exact ⟨by rw [hl.last hc h], (ih (by omega)).2.2 n h hl hpr⟩
        | get k =>
          simp only [aTrace, aStep, MRecovers]
          exact hread (.get k) trivial (by simp) (by simpa only [aTrace, aStep, MPrudent] using hpr)
        | contains k =>
          simp only [aTrace, aStep, MRecovers]
          exact hread (.contains k) trivial (by simp) (by simpa only [aTrace, aStep, MPrudent] using hpr)
        | isEmpty =>
          simp only [aTrace, aStep, MRecovers]
          exact hread (.isEmpty) trivial (by simp) (by simpa only [aTrace, aStep, MPrudent] using hpr)
        | iter =>
          simp only [aTrace, aStep, MRecovers]
          exact hread (.iter) trivial (by simp) (by simpa only [aTrace, aStep, MPrudent] using hpr)
        | iterFrom k =>
          simp only [aTrace, aStep, MRecovers]
          exact hread (.iterFrom k) trivial (by simp) (by simpa only [aTrace, aStep, MPrudent] using hpr)
        | next it =>
          simp only [aTrace, aStep, MRecovers]
          exact hread (.next it) trivial (by simp) (by simpa only [aTrace, aStep, MPrudent] using hpr)
        | getNext k =>
          simp only [aTrace, aStep, MRecovers]
          exact hread (.getNext k) trivial (by simp) (by simpa only [aTrace, aStep, MPrudent] using hpr)

end Verif.Ilm
