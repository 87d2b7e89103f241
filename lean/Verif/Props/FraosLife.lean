import Verif.Fraos.ConcurrentCrash
import Verif.Props.FraosCrash

/-!
# C86: threads, deaths, power failures and reopenings in any order

`Life p sys db0 phs db` (`Verif/Fraos/ConcurrentCrash.lean`): the code goes from `db0` through the phases `phs` to `db`; in a phase one
thread makes calls, or threads share the database, or the process dies or power fails at some moment of that (`Dies`, `Cuts`) and the
directory is opened again.
`Story sys phs log`: the same phases, of a list of records.
-/

namespace Verif.Props

open Verif.Fraos

/-- The limits of the model: numbers below `2^60`, less than `2^59` bytes. -/
def Lived (phs : List Phase) : Prop := (∀ ph ∈ phs, ph.small) ∧ (phs.map Phase.bytes).sum < 2 ^ 59

/-- **C86.** Whatever the phases, the schedules and the moments of death and power failure, the calls and answers of all phases are those of one list
of records, and the database that is left answers every later history as that list does. -/
theorem C86_refines (p : Params) (sys : Bool) (hp : 16 ∣ p.minMmap) (hm : p.minMmap < 2 ^ 62) (db0 db : DB) (h0 : fresh p true = .ok db0)
    (phs : List Phase) (hl : Life p sys db0 phs db) (hf : Lived phs) :
    ∃ log, Story sys phs log ∧ ∀ later : List Op, (∀ op ∈ later, op.small) →
      (phs.map Phase.bytes).sum + bytesOf later < 2 ^ 60 → run p db later = specRun true log later := by
  obtain ⟨log, hst, hg⟩ := life_story hp hm h0 hl hf.1 hf.2
  exact ⟨log, hst, fun later hs hb => (run_good hp later hg hs hb).1⟩

/-- **C86.** Whenever the process dies while threads share the database, it can be opened again. -/
theorem C86_reopens (p : Params) (sys : Bool) (hp : 16 ∣ p.minMmap) (hm : p.minMmap < 2 ^ 62) (db0 db : DB) (h0 : fresh p true = .ok db0)
    (phs : List Phase) (hl : Life p sys db0 phs db) (n : Nat) (tr : List (Ev n)) (hf : Lived (phs ++ [.died n tr])) (s : CState n)
    (hx : Exec (CStep p sys) (cinit n db) tr s) (b : List (List UInt8)) (j : Nat) (fd fi : Blob) (hd : Dies p s b j fd fi) :
    ∃ db', DB.openDB p (some fd) (some fi) true = .ok db' ∧ Life p sys db0 (phs ++ [.died n tr]) db' := by
  obtain ⟨hs, hB⟩ := hf
  simp only [List.map_append, List.map_cons, List.map_nil, List.sum_append, List.sum_cons, List.sum_nil, Nat.add_zero,
    Phase.bytes] at hB
  obtain ⟨log, hst, hg⟩ := life_story hp hm h0 hl (fun x hx => hs x (by simp [hx])) (by omega)
  have hs' : ∀ e ∈ tr, e.small := hs (.died n tr) (by simp)
  obtain ⟨es, C, hsim⟩ := sim_init (n := n) hg
  obtain ⟨a, es', C', ha, hsim'⟩ := sim_exec hp hsim hx hs' (by omega)
  obtain ⟨hb, hj, hdisk, hlen⟩ := hd.disk hp hm hsim' (sized_exec hp hsim (sized_init hg) hx hs' (by omega)) hB
  obtain ⟨db1, es1, C1, e, hinv, hr, hle, hwd, hwi, hfd, hfi⟩ := open_spec (p := p) hdisk true
  exact ⟨db1, e, .more hl (.died hx hd e)⟩

/-- **C86.** Whenever power fails while threads share the database, it can be opened again. -/
theorem C86_reopens_after_power (p : Params) (sys : Bool) (hp : 16 ∣ p.minMmap) (hm : p.minMmap < 2 ^ 62) (db0 db : DB)
    (h0 : fresh p true = .ok db0) (phs : List Phase) (hl : Life p sys db0 phs db) (n : Nat) (tr : List (Ev n))
    (hf : Lived (phs ++ [.died n tr])) (s : CState n) (hx : Exec (CStep p sys) (cinit n db) tr s) (b : List (List UInt8))
    (fd fi : Blob) (hd : Cuts p s b fd fi) :
    ∃ db', DB.openDB p (some fd) (some fi) true = .ok db' ∧ Life p sys db0 (phs ++ [.died n tr]) db' := by
  obtain ⟨hs, hB⟩ := hf
  simp only [List.map_append, List.map_cons, List.map_nil, List.sum_append, List.sum_cons, List.sum_nil, Nat.add_zero,
    Phase.bytes] at hB
  obtain ⟨log, hst, hg⟩ := life_story hp hm h0 hl (fun x hx => hs x (by simp [hx])) (by omega)
  have hs' : ∀ e ∈ tr, e.small := hs (.died n tr) (by simp)
  obtain ⟨es, C, hsim⟩ := sim_init (n := n) hg
  obtain ⟨a, es', C', ha, hsim'⟩ := sim_exec hp hsim hx hs' (by omega)
  obtain ⟨j, hb, hj, hdisk, hlen⟩ := hd.disk hp hm hsim' (sized_exec hp hsim (sized_init hg) hx hs' (by omega)) hB
  obtain ⟨db1, es1, C1, e, hinv, hr, hle, hwd, hwi, hfd, hfi⟩ := open_spec (p := p) hdisk true
  exact ⟨db1, e, .more hl (.cut hx hd e)⟩

/-- The calls and answers of the threads of a phase. -/
def Phase.says : Phase → Call → Resp → Prop
  | .shared _ tr, c, r => ∃ t, Ev.ret t c r ∈ tr
  | .died _ tr, c, r => ∃ t, Ev.ret t c r ∈ tr
  | _, _, _ => False

/-- The records an answer shows, with their numbers. -/
def shows (c : Call) (r : Resp) (i : Nat) (x : List UInt8) : Prop :=
  (∃ b k j, c = .append b ∧ r = .seqno (.ok (some k)) ∧ i = k + j ∧ b[j]? = some x) ∨
    (c = .get i ∧ r = .record (.ok (some x)))

theorem good_noEmpty {p : Params} {onDisk : Bool} {db : DB} {log : List (List UInt8)} {used : Nat}
    (h : Good p onDisk db log used) : [] ∉ log := by
  obtain ⟨es, C, hinv, _⟩ := h.ex
  intro hm
  obtain ⟨i, hi⟩ := List.getElem?_of_mem hm
  have hlt := (List.getElem?_eq_some_iff.mp hi).1
  have hl := hinv.recs.length
  have he : es[i]? = some (es[i]'(by omega)) := List.getElem?_eq_getElem (by omega)
  obtain ⟨r, hr, h1⟩ := forall2_getElem hinv.recs.each he
  rw [hi] at hr
  cases hr
  obtain ⟨h2, h3, h4, _⟩ := h1
  have := (hinv.recs.mem (List.mem_of_getElem? he)).1
  simp_all

/-- An answer shows records that are in the list at the end of the phase. -/
theorem says_kept {sys : Bool} {log log' : List (List UInt8)} (hne : [] ∉ log) {ph : Phase} (hm : Means sys log ph log') {c : Call} {r : Resp}
    (hs : Phase.says ph c r) {i : Nat} {x : List UInt8} (hx : shows c r i x) : log'[i]? = some x := by
  have key : ∀ {n : Nat} {tr : List (Ev n)} {a : AState n}, Exec (AStep sys) ⟨log, log.length, fun _ => .idle⟩ tr a →
      (∃ t, Ev.ret t c r ∈ tr) → a.log[i]? = some x := by
    intro n tr a hxe hsays
    obtain ⟨t, ht⟩ := hsays
    have hfact : Fact sys a.log a.counted c r := by
      by_cases hl : log = []
      · subst hl
        exact (AInv.exec hxe).rets t c r ht
      · obtain ⟨u, hi⟩ := AInv.from hne hxe ⟨t⟩ hl
        exact hi.rets t c r (by simp [ht])
    rcases hx with ⟨b, k, j, rfl, rfl, rfl, hb⟩ | ⟨rfl, rfl⟩
    · rw [hfact.2.2.2 j (List.getElem?_eq_some_iff.mp hb).1, hb]
    · exact hfact
  cases hm with
  | calls => exact hs.elim
  | shared hxe _ => exact key hxe hs
  | died hxe => exact key hxe hs
  | torn hxe _ _ _ => exact prefix_get (List.prefix_append _ _) (key hxe hs)
  | closing => exact hs.elim

/-- **C86.** A record that was acknowledged to a thread or read by a thread, in any phase — also one in which the process died or power failed —
is found under its number after all later phases. -/
theorem C86_kept (p : Params) (sys : Bool) (hp : 16 ∣ p.minMmap) (hm : p.minMmap < 2 ^ 62) (db0 db : DB) (h0 : fresh p true = .ok db0)
    (phs phs' : List Phase) (ph : Phase) (hl : Life p sys db0 (phs ++ ph :: phs') db) (hf : Lived (phs ++ ph :: phs')) (c : Call)
    (r : Resp) (hs : Phase.says ph c r) (i : Nat) (x : List UInt8) (hx : shows c r i x) : db.get p i = .ok (some x) := by
  have key : ∀ l, Life p sys db0 l db → Lived l → ∀ phs', l = phs ++ ph :: phs' →
      ∃ log used, Good p true db log used ∧ log[i]? = some x := by
    clear hl hf
    intro l hl
    induction hl with
    | start => intro _ phs' he; simp at he
    | @more l ph1 db1 db2 hl1 hh ih =>
      intro hf phs' he
      obtain ⟨hsm, hB⟩ := hf
      simp only [List.map_append, List.map_cons, List.map_nil, List.sum_append, List.sum_cons, List.sum_nil, Nat.add_zero] at hB
      obtain ⟨log, hst, hg⟩ := life_story hp hm h0 hl1 (fun x hx => hsm x (by simp [hx])) (by omega)
      rcases List.eq_nil_or_concat phs' with rfl | ⟨phs1, ph2, rfl⟩
      · have he' := List.append_inj' he rfl
        obtain ⟨rfl, h2⟩ := he'
        cases h2
        obtain ⟨log', hmn, hg'⟩ := happens_means hp hm hg hh (hsm _ (by simp)) hB
        exact ⟨log', _, hg', says_kept (good_noEmpty hg) hmn hs hx⟩
      · have he2 : l ++ [ph1] = (phs ++ ph :: phs1) ++ [ph2] := by rw [he]; simp
        obtain ⟨rfl, h2⟩ := List.append_inj' he2 rfl
        cases h2
        obtain ⟨log1, used1, hg1, hget⟩ := ih ⟨fun y hy => hsm y (List.mem_append_left _ hy), by omega⟩ phs1 rfl
        have hlog : log1 = log := by
          obtain ⟨es1, C1, hi1, _⟩ := hg1.ex
          obtain ⟨es2, C2, hi2, _⟩ := hg.ex
          have hlen : log1.length = log.length := by rw [← hi1.len_eq, hi2.len_eq]
          refine List.ext_getElem? ?_
          intro m
          by_cases hm60 : m < 2 ^ 60
          · have h1 := hi1.get_ok (p := p) hm60
            rw [hi2.get_ok hm60] at h1
            exact (Except.ok.inj h1).symm
          · have := hi1.log_lt
            rw [List.getElem?_eq_none (by omega), List.getElem?_eq_none (by omega)]
        subst hlog
        obtain ⟨log', hmn, hg'⟩ := happens_means hp hm hg hh (hsm _ (by simp)) hB
        exact ⟨log', _, hg', prefix_get hmn.grows hget⟩
  obtain ⟨log, used, hg, hget⟩ := key _ hl hf phs' rfl
  obtain ⟨es, C, hinv, _⟩ := hg.ex
  have := hinv.log_lt
  have h1 := (List.getElem?_eq_some_iff.mp hget).1
  rw [hinv.get_ok (by omega), hget]

/-- The records brought by the calls of a phase. -/
def Phase.brings : Phase → List UInt8 → Prop
  | .calls ops, x => ∃ op ∈ ops, (∃ b, op = .append b ∧ x ∈ b) ∨ op = .putSeqno x
  | .shared _ tr, x => ∃ t b, Ev.inv t (.append b) ∈ tr ∧ x ∈ b
  | .died _ tr, x => ∃ t b, Ev.inv t (.append b) ∈ tr ∧ x ∈ b
  | .closing, _ => False

theorem means_brought {sys : Bool} {log log' : List (List UInt8)} {ph : Phase} (hm : Means sys log ph log') {x : List UInt8} (hx : x ∈ log') :
    x ∈ log ∨ Phase.brings ph x := by
  have key : ∀ {n : Nat} {tr : List (Ev n)} {a : AState n}, Exec (AStep sys) ⟨log, log.length, fun _ => .idle⟩ tr a →
      (∀ y ∈ a.log, y ∈ log ∨ ∃ t b, Ev.inv t (.append b) ∈ tr ∧ y ∈ b) ∧
      ∀ t b, a.pcs t = .start (.append b) → Ev.inv t (.append b) ∈ tr := by
    intro n tr a hxe
    refine Exec.invariant (P := fun (tr : List (Ev n)) (a : AState n) =>
      (∀ y ∈ a.log, y ∈ log ∨ ∃ t b, Ev.inv t (.append b) ∈ tr ∧ y ∈ b) ∧
      ∀ t b, a.pcs t = .start (.append b) → Ev.inv t (.append b) ∈ tr) ⟨fun y hy => .inl hy, by simp⟩ ?_ hxe
    intro tr a ev a' ⟨h1, h2⟩ hs
    have hmono : ∀ y, (y ∈ log ∨ ∃ t b, Ev.inv t (.append b) ∈ tr ∧ y ∈ b) →
        (y ∈ log ∨ ∃ t b, Ev.inv t (.append b) ∈ tr ++ ev.toList ∧ y ∈ b) := by
      rintro y (h | ⟨t, b, h, h'⟩)
      · exact .inl h
      · exact .inr ⟨t, b, by simp [h], h'⟩
    have hpcs : ∀ (t : Fin n) (ac : APC), (∀ b, ac = .start (.append b) → Ev.inv t (.append b) ∈ tr ++ ev.toList) →
        ∀ u b, Function.update a.pcs t ac u = .start (.append b) → Ev.inv u (.append b) ∈ tr ++ ev.toList := by
      intro t ac hac u b hu
      rcases update_cases hu with ⟨rfl, he⟩ | ⟨_, he⟩
      · exact hac b he
      · exact List.mem_append_left _ (h2 u b he)
    cases hs with
    | invoke ht => exact ⟨fun y hy => hmono y (h1 y hy), hpcs _ _ (by intro b hb; cases hb; simp)⟩
    | put ht _ _ _ =>
      refine ⟨?_, hpcs _ _ (by intro b hb; cases hb)⟩
      intro y hy
      rcases List.mem_append.mp hy with hy | hy
      · exact hmono y (h1 y hy)
      · exact .inr ⟨_, _, List.mem_append_left _ (h2 _ _ ht), hy⟩
    | none_ ht => exact ⟨fun y hy => hmono y (h1 y hy), hpcs _ _ (by intro b hb; cases hb)⟩
    | refuse ht _ => exact ⟨fun y hy => hmono y (h1 y hy), hpcs _ _ (by intro b hb; cases hb)⟩
    | fail ht _ _ _ _ => exact ⟨fun y hy => hmono y (h1 y hy), hpcs _ _ (by intro b hb; cases hb)⟩
    | count ht => exact ⟨fun y hy => hmono y (h1 y hy), hpcs _ _ (by intro b hb; cases hb)⟩
    | read ht => exact ⟨fun y hy => hmono y (h1 y hy), hpcs _ _ (by intro b hb; cases hb)⟩
    | tally ht => exact ⟨fun y hy => hmono y (h1 y hy), hpcs _ _ (by intro b hb; cases hb)⟩
    | answer ht => exact ⟨fun y hy => hmono y (h1 y hy), hpcs _ _ (by intro b hb; cases hb)⟩
  cases hm with
  | @calls ops =>
    clear key
    induction ops generalizing log with
    | nil => exact .inl hx
    | cons op ops ih =>
      have h1 : x ∈ specAfter true (specStep true log op).2 ops := hx
      rcases ih h1 with h | ⟨o, ho, h⟩
      · by_cases hl : x ∈ log
        · exact .inl hl
        refine .inr ⟨op, by simp, ?_⟩
        cases op with
        | append b =>
          simp only [specStep] at h
          split at h
          · exact absurd h hl
          · split at h
            · exact absurd h hl
            · exact .inl ⟨b, rfl, (List.mem_append.mp h).resolve_left hl⟩
        | putSeqno r =>
          simp only [specStep] at h
          split at h
          · exact absurd h hl
          · exact .inr (by rw [List.mem_singleton.mp ((List.mem_append.mp h).resolve_left hl)])
        | _ => exact absurd h hl
      · exact .inr ⟨o, by simp [ho], h⟩
  | shared hxe _ => exact (key hxe).1 x hx
  | died hxe => exact (key hxe).1 x hx
  | torn hxe ht _ _ =>
    rcases List.mem_append.mp hx with hx | hx
    · exact (key hxe).1 x hx
    · exact .inr ⟨_, _, (key hxe).2 _ _ ht, List.mem_of_mem_take hx⟩
  | closing => exact .inl hx

/-- **C86.** Every record found after any phases was brought by a call of one of them. -/
theorem C86_nothing_else (p : Params) (sys : Bool) (hp : 16 ∣ p.minMmap) (hm : p.minMmap < 2 ^ 62) (db0 db : DB)
    (h0 : fresh p true = .ok db0) (phs : List Phase) (hl : Life p sys db0 phs db) (hf : Lived phs) (i : Nat) (hi : i < 2 ^ 60)
    (x : List UInt8) (hx : db.get p i = .ok (some x)) : ∃ ph ∈ phs, Phase.brings ph x := by
  obtain ⟨log, hst, hg⟩ := life_story hp hm h0 hl hf.1 hf.2
  obtain ⟨es, C, hinv, hle⟩ := hg.ex
  rw [hinv.get_ok hi] at hx
  have hmem : x ∈ log := List.mem_of_getElem? (Except.ok.inj hx)
  clear hl hf hg hx hle hinv
  induction hst with
  | start => cases hmem
  | more _ hmn ih =>
    rcases means_brought hmn hmem with h | h
    · obtain ⟨ph, h1, h2⟩ := ih h
      exact ⟨ph, by simp [h1], h2⟩
    · exact ⟨_, by simp, h⟩

/-- Small mappings, so that the files of the example are small. -/
def tiny : Params := { Params.code with minMmap := 32 }

theorem counts_one {db : DB} (h : db.len = 1) : Happens tiny false db (.shared 1 [.inv 0 .len, .ret 0 .len (.number 1)]) db := by
  have g0 : Exec (CStep tiny false) (cinit 1 db) [] _ := .nil
  have g1 := g0.event (.invoke (t := 0) (c := .len) rfl)
  have g2 := g1.silent (.count (t := 0) rfl)
  have g3 := g2.event (.answer (t := 0) (c := .len) (r := .number 1) (by simp [CState.goto, cinit, h]))
  exact Happens.shared g3 (fun t => match t with | 0 => rfl)

/-- A life in which the process dies after three of the four words of two index entries, with one thread writing and another one
reading; then threads share what is left. -/
example : ∃ db0 db, fresh tiny true = .ok db0 ∧ Life tiny false db0
    [.died 2 [.inv 0 (.append [[1], [2, 3]]), .inv 1 .len, .ret 1 .len (.number 0)],
     .shared 1 [.inv 0 .len, .ret 0 .len (.number 1)]] db := by
  obtain ⟨db0, e0⟩ : ∃ db0, fresh tiny true = .ok db0 := ⟨_, rfl⟩
  have h0 : Exec (CStep tiny false) (cinit 2 db0) [] _ := .nil
  have e0' := e0
  cases e0'
  have h1 := h0.event (.invoke (t := 0) (c := .append [[1], [2, 3]]) rfl)
  have h2 := h1.silent (.lock (t := 0) (b := [[1], [2, 3]]) rfl (by decide) rfl)
  have h3 := h2.silent (.begin (t := 0) (b := [[1], [2, 3]]) rfl)
  have h4 := h3.silent (.loadData (t := 0) (b := [[1], [2, 3]]) (d0 := 0) rfl rfl)
  have h5 := h4.silent (.growData (t := 0) (b := [[1], [2, 3]]) (d0 := 0) (sz := 0) rfl (.inl rfl) rfl)
  have h6 := h5.silent (.storeData (t := 0) (b := [[1], [2, 3]]) (d0 := 0) (sz := 0) rfl)
  have h7 := h6.silent (.number (t := 0) (b := [[1], [2, 3]]) (d0 := 0) rfl)
  have h8 := h7.event (.invoke (t := 1) (c := .len) rfl)
  have h9 := h8.silent (.count (t := 1) rfl)
  have h10 := h9.event (.answer (t := 1) (c := .len) (r := .number 0) rfl)
  have h11 := h10.silent (.loadIdx (t := 0) (b := [[1], [2, 3]]) (d0 := 0) (k := 0) rfl)
  have hl1 := Life.more Life.start (Happens.died h11 (Dies.index (t := 0) (b := [[1], [2, 3]]) (d0 := 0) (k := 0) (sz := 0) rfl rfl
    (.storing (k := 3) rfl rfl (by decide) (store_file rfl (by decide)) rfl)) rfl)
  have hl2 := Life.more hl1 (counts_one rfl)
  exact ⟨_, _, rfl, hl2⟩

/-- The same with a power failure: the only page of the index holds three of the four words. -/
example : ∃ db0 db, fresh tiny true = .ok db0 ∧ Life tiny false db0
    [.died 2 [.inv 0 (.append [[1], [2, 3]]), .inv 1 .len, .ret 1 .len (.number 0)],
     .shared 1 [.inv 0 .len, .ret 0 .len (.number 1)]] db := by
  obtain ⟨db0, e0⟩ : ∃ db0, fresh tiny true = .ok db0 := ⟨_, rfl⟩
  have h0 : Exec (CStep tiny false) (cinit 2 db0) [] _ := .nil
  have e0' := e0
  cases e0'
  have h1 := h0.event (.invoke (t := 0) (c := .append [[1], [2, 3]]) rfl)
  have h2 := h1.silent (.lock (t := 0) (b := [[1], [2, 3]]) rfl (by decide) rfl)
  have h3 := h2.silent (.begin (t := 0) (b := [[1], [2, 3]]) rfl)
  have h4 := h3.silent (.loadData (t := 0) (b := [[1], [2, 3]]) (d0 := 0) rfl rfl)
  have h5 := h4.silent (.growData (t := 0) (b := [[1], [2, 3]]) (d0 := 0) (sz := 0) rfl (.inl rfl) rfl)
  have h6 := h5.silent (.storeData (t := 0) (b := [[1], [2, 3]]) (d0 := 0) (sz := 0) rfl)
  have h7 := h6.silent (.number (t := 0) (b := [[1], [2, 3]]) (d0 := 0) rfl)
  have h8 := h7.event (.invoke (t := 1) (c := .len) rfl)
  have h9 := h8.silent (.count (t := 1) rfl)
  have h10 := h9.event (.answer (t := 1) (c := .len) (r := .number 0) rfl)
  have h11 := h10.silent (.loadIdx (t := 0) (b := [[1], [2, 3]]) (d0 := 0) (k := 0) rfl)
  have hl1 := Life.more Life.start (Happens.cut h11 (Cuts.index (t := 0) (b := [[1], [2, 3]]) (d0 := 0) (k := 0) (sz := 0)
    (fi := (Blob.empty.setLen 32).write 0 ((entriesBytes [(0, 1), (1, 2)]).take 24)) rfl rfl
    (.storing (ks := fun _ => 3) rfl rfl rfl rfl rfl (fun _ _ => rfl)) (by intro i j h1 h2 h3 h4; simp at h2 h4; omega)) rfl)
  have hl2 := Life.more hl1 (counts_one rfl)
  exact ⟨_, _, rfl, hl2⟩

end Verif.Props
