import Verif.Ilm.Lemmas
import Verif.Ilm.Cbor
import Mathlib.Data.List.Induction

/-!
# C12, C13, C14: the log with a key index

`mSpecRun` (`Verif/Ilm/Spec.lean`) is the meaning of histories of calls, with iterators. The encoding is
any lawful one; CBOR of `u64` is shown to be one (`Verif/Ilm/Cbor.lean`).
-/

namespace Verif.Props

open Verif.Fraos Verif.Ilm

variable {K V : Type} [DecidableEq K]

/-- Keys and values appended by a history, in order. Appends that cannot be encoded have no effect. -/
def appended (c : Codec K V) : List (MOp K V) → List (K × V)
  | [] => []
  | .append k v :: ops =>
    if (c.encK k).isSome ∧ (c.encV v).isSome then (k, v) :: appended c ops else appended c ops
  | _ :: ops => appended c ops

/-- The value appended last under a key. -/
def latest (k : K) (l : List (K × V)) : Option V :=
  ((l.filter (fun x => x.1 = k)).getLast?).map Prod.snd

/-- The map keeps its contents and its key index: it is never reopened without the index, nor at all in
memory. -/
def Kept (onDisk : Bool) (op : MOp K V) : Prop :=
  match op with
  | .reopen indexed => indexed = true ∧ onDisk = true
  | _ => True

/-- Positions of the keys of a log, newest first. -/
def numbered : List (K × V) → List (K × Nat)
  | [] => []
  | x :: xs => (numbered xs).map (fun y => (y.1, y.2 + 1)) ++ [(x.1, 0)]

omit [DecidableEq K] in
theorem numbered_concat (l : List (K × V)) (x : K × V) :
    numbered (l ++ [x]) = (x.1, l.length) :: numbered l := by
  induction l with
  | nil => rfl
  | cons y ys ih => simp [numbered, ih]

theorem specAfter_kept (c : Codec K V) (onDisk : Bool) (ops : List (MOp K V))
    (hk : ∀ op ∈ ops, Kept onDisk op) (l : List (K × V)) (its : List Nat) :
    ∃ its', mSpecAfter c onDisk ⟨l, numbered l, true, its⟩ ops =
      ⟨l ++ appended c ops, numbered (l ++ appended c ops), true, its'⟩ := by
  induction ops generalizing l its with
  | nil => exact ⟨its, by simp [mSpecAfter, appended]⟩
  | cons op ops ih =>
    have hk' : ∀ o ∈ ops, Kept onDisk o := fun o ho => hk o (by simp [ho])
    have hkeep : ∀ its', (mSpecStep c onDisk ⟨l, numbered l, true, its⟩ op).2 = ⟨l, numbered l, true, its'⟩ →
        appended c (op :: ops) = appended c ops →
        ∃ its', mSpecAfter c onDisk ⟨l, numbered l, true, its⟩ (op :: ops) =
          ⟨l ++ appended c (op :: ops), numbered (l ++ appended c (op :: ops)), true, its'⟩ := by
      intro its' h1 h2
      obtain ⟨its'', h3⟩ := ih hk' l its'
      refine ⟨its'', ?_⟩
      rw [h2, ← h3]
      simp only [mSpecAfter, List.foldl_cons]
      rw [h1]
    cases op with
    | append k v =>
      by_cases he : (c.encK k).isSome ∧ (c.encV v).isSome
      · obtain ⟨its'', h3⟩ := ih hk' (l ++ [(k, v)]) its
        refine ⟨its'', ?_⟩
        have h1 : (mSpecStep c onDisk ⟨l, numbered l, true, its⟩ (.append k v)).2 =
            ⟨l ++ [(k, v)], numbered (l ++ [(k, v)]), true, its⟩ := by
          simp only [mSpecStep, if_true]
          rw [if_pos he, numbered_concat]
        have h2 : appended c (.append k v :: ops) = (k, v) :: appended c ops := by
          simp only [appended]; rw [if_pos he]
        rw [h2, List.append_cons, ← h3]
        simp only [mSpecAfter, List.foldl_cons]
        rw [h1]
      · refine hkeep its ?_ (by simp only [appended]; rw [if_neg he])
        simp only [mSpecStep, if_true]
        rw [if_neg he]
    | get k => exact hkeep its rfl rfl
    | contains k => exact hkeep its rfl rfl
    | isEmpty => exact hkeep its rfl rfl
    | last => exact hkeep its rfl rfl
    | iter => exact hkeep _ rfl rfl
    | iterFrom k =>
      simp only [mSpecStep] at hkeep
      cases hx : MSpec.keyed c ⟨l, numbered l, true, its⟩ k (List.lookup k (numbered l)) with
      | error e => exact hkeep its (by rw [hx]; rfl) rfl
      | ok o =>
        cases o with
        | none => exact hkeep its (by rw [hx]; rfl) rfl
        | some i => exact hkeep _ (by rw [hx]; rfl) rfl
    | next it =>
      cases hx : its[it]? with
      | none => exact hkeep its (by simp only [mSpecStep, hx]) rfl
      | some i => exact hkeep (its.set it (if i < l.length then i + 1 else i)) (by simp only [mSpecStep, hx]) rfl
    | getNext k => cases k <;> exact hkeep its rfl rfl
    | reopen indexed =>
      obtain ⟨rfl, rfl⟩ := hk (.reopen indexed) (by simp)
      exact hkeep [] rfl rfl

/-- The state of the code after a history on a map with its key index. -/
theorem kept_rel (p : Params) (hp : 16 ∣ p.minMmap) (c : Codec K V) (hc : c.Lawful) (onDisk : Bool)
    (ops : List (MOp K V)) (hk : ∀ op ∈ ops, Kept onDisk op) (hbytes : mBytes c ops < 2 ^ 60) (m : ILM)
    (hm : Ilm.fresh p onDisk true = .ok m) :
    ∃ its, MRel p c onDisk (mAfter p c onDisk m [] ops).1
      ⟨appended c ops, numbered (appended c ops), true, its⟩ (mBytes c ops) := by
  obtain ⟨m', e, hr⟩ := fresh_rel p c onDisk true
  rw [hm] at e; cases e
  obtain ⟨_, _, h3⟩ := hr.run hp hc ops (by omega)
  obtain ⟨its, h4⟩ := specAfter_kept c onDisk ops hk [] []
  refine ⟨its, ?_⟩
  have : (⟨[], [], true, []⟩ : MSpec K V) = ⟨[], numbered ([] : List (K × V)), true, []⟩ := rfl
  rw [this, h4] at h3
  simpa using h3

theorem lookup_numbered (l : List (K × V)) (k : K) :
    (List.lookup k (numbered l)).bind (fun i => l[i]?.map Prod.snd) = latest k l := by
  induction l using List.reverseRecOn with
  | nil => rfl
  | append_singleton l x ih =>
    rw [numbered_concat, List.lookup_cons]
    unfold latest at ih ⊢
    by_cases hk : k = x.1
    · subst hk
      simp
    · have h1 : (k == x.1) = false := by rw [beq_eq_false_iff_ne]; exact hk
      have h2 : ¬ x.1 = k := fun h => hk h.symm
      simp only [h1, List.filter_append, List.filter_cons, List.filter_nil, decide_eq_true_eq, h2, if_false,
        List.append_nil]
      rw [← ih]
      cases hl : List.lookup k (numbered l) with
      | none => rfl
      | some i =>
        simp only [Option.bind_some]
        have hi : i < l.length := by
          have hmem := lookup_mem hl
          have key : ∀ (l : List (K × V)) (y : K × Nat), y ∈ numbered l → y.2 < l.length := by
            intro l
            induction l with
            | nil => intro y hy; cases hy
            | cons a as ih =>
              intro y hy
              simp only [numbered, List.mem_append, List.mem_map, List.mem_singleton] at hy
              rcases hy with ⟨z, hz, rfl⟩ | rfl
              · have := ih z hz; simp; omega
              · simp
          exact key l _ hmem
        rw [List.getElem?_append_left hi]

/-- **C12.** Every history on any map — on disk or in memory, with or without the key index, with iterators
taken at any time and reopened at any time — is answered as by the specification. -/
theorem C12_refines (p : Params) (hp : 16 ∣ p.minMmap) (c : Codec K V) (hc : c.Lawful)
    (onDisk indexed : Bool) (ops : List (MOp K V)) (hbytes : mBytes c ops < 2 ^ 60) :
    ∃ m, Ilm.fresh p onDisk indexed = .ok m ∧
      mRun p c onDisk m [] ops = mSpecRun c onDisk ⟨[], [], indexed, []⟩ ops := by
  obtain ⟨m, e, hr⟩ := fresh_rel p c onDisk indexed
  exact ⟨m, e, (hr.run hp hc ops (by omega)).1⟩

/-- **C12.** After every history, `get` and `contains` follow the latest append under the key, `last` the
latest append of all, and `is_empty` says whether anything was appended. -/
theorem C12_latest_wins (p : Params) (hp : 16 ∣ p.minMmap) (c : Codec K V) (hc : c.Lawful) (onDisk : Bool)
    (ops : List (MOp K V)) (hk : ∀ op ∈ ops, Kept onDisk op) (hbytes : mBytes c ops < 2 ^ 60) (m m' : ILM)
    (hm : Ilm.fresh p onDisk true = .ok m) (hm' : (mAfter p c onDisk m [] ops).1 = m') :
    (∀ k, (c.encK k).isSome → Ilm.get p c m' k = .ok (latest k (appended c ops)) ∧
      Ilm.contains p c m' k = .ok (latest k (appended c ops)).isSome) ∧
    Ilm.last p c m' = .ok ((appended c ops).getLast?.map Prod.snd) ∧
    Ilm.isEmpty m' = .ok (appended c ops).isEmpty := by
  obtain ⟨its, hr⟩ := kept_rel p hp c hc onDisk ops hk hbytes m hm
  rw [hm'] at hr
  have hkeyed : ∀ (α : Type) (k : K) (x : α), (c.encK k).isSome →
      MSpec.keyed c ⟨appended c ops, numbered (appended c ops), true, its⟩ k x = .ok x := by
    intro α k x he
    unfold MSpec.keyed
    simp [he]
  refine ⟨?_, ?_, ?_⟩
  · intro k he
    have hg := hr.get_eq hc hbytes k
    rw [hkeyed _ _ _ he] at hg
    have hl : (List.lookup k (numbered (appended c ops))).bind
        (MSpec.at_ ⟨appended c ops, numbered (appended c ops), true, its⟩) = latest k (appended c ops) :=
      lookup_numbered _ _
    simp only at hg
    rw [hl] at hg
    refine ⟨hg, ?_⟩
    unfold Ilm.contains
    rw [hg]
  · have := (hr.step hp hc .last (by simpa [MOp.bytes] using hbytes)).1
    simpa [mStep, mSpecStep] using this
  · have := (hr.step hp hc .isEmpty (by simpa [MOp.bytes] using hbytes)).1
    simp only [mStep, mSpecStep, if_true, MResp.flag.injEq] at this
    rw [this]
    congr 1
    cases appended c ops <;> simp [numbered]

/-- Results of `n` calls of `next()` on an iterator at `i`. -/
def items (p : Params) (c : Codec K V) (m : ILM) : Nat → Nat → List (Option (Except MErr V))
  | 0, _ => []
  | n + 1, i => (Ilm.next p c m i).1 :: items p c m n (Ilm.next p c m i).2

/-- What an iterator over the values of `l` answers to `n` calls: the values, then the end. -/
def valuesThenEnd (l : List (K × V)) (n : Nat) : List (Option (Except MErr V)) :=
  (l.map (fun x : K × V => some (Except.ok x.2)) ++ List.replicate n none).take n

omit [DecidableEq K] in
theorem items_eq {p : Params} {c : Codec K V} (hc : c.Lawful) {onDisk : Bool} {m : ILM} {s : MSpec K V}
    {used : Nat} (h : MRel p c onDisk m s used) (hu : used < 2 ^ 60) (n i : Nat) (hi : i ≤ s.log.length) :
    items p c m n i = valuesThenEnd (s.log.drop i) n := by
  unfold valuesThenEnd
  have hlt := h.length_lt hu
  induction n generalizing i with
  | zero => simp [items]
  | succ n ih =>
    simp only [items]
    rw [h.next_eq hc (by omega)]
    by_cases hc' : i < s.log.length
    · simp only [if_pos hc']
      rw [ih (i + 1) (by omega), List.drop_eq_getElem_cons hc']
      simp only [MSpec.item, MSpec.at_, List.getElem?_eq_getElem hc', Option.map_some, List.map_cons,
        List.cons_append, List.take_succ_cons]
      congr 1
      rw [List.take_append, List.take_append]
      congr 1
      simp only [List.take_replicate, List.length_map, List.length_drop]
      congr 1
      omega
    · simp only [if_neg hc']
      rw [ih i hi, List.drop_eq_nil_of_le (by omega)]
      simp only [MSpec.item, MSpec.at_, List.getElem?_eq_none (Nat.le_of_not_lt hc'), Option.map_none,
        List.map_nil, List.nil_append, List.take_replicate, Nat.min_self, List.replicate_succ,
        List.take_succ_cons]

/-- **C12.** `iter()` yields the values of all appends in order, then ends. -/
theorem C12_iter (p : Params) (hp : 16 ∣ p.minMmap) (c : Codec K V) (hc : c.Lawful) (onDisk : Bool)
    (ops : List (MOp K V)) (hk : ∀ op ∈ ops, Kept onDisk op) (hbytes : mBytes c ops < 2 ^ 60) (m : ILM)
    (hm : Ilm.fresh p onDisk true = .ok m) (n : Nat) :
    items p c (mAfter p c onDisk m [] ops).1 n 0 =
      valuesThenEnd (appended c ops) n := by
  obtain ⟨its, hr⟩ := kept_rel p hp c hc onDisk ops hk hbytes m hm
  simpa using items_eq hc hr hbytes n 0 (Nat.zero_le _)

omit [DecidableEq K] in
theorem numbered_append (l1 l2 : List (K × V)) :
    numbered (l1 ++ l2) = (numbered l2).map (fun y => (y.1, y.2 + l1.length)) ++ numbered l1 := by
  induction l2 using List.reverseRecOn with
  | nil => simp [numbered]
  | append_singleton l2 x ih =>
    rw [← List.append_assoc, numbered_concat, numbered_concat, ih]
    simp [Nat.add_comm]

theorem lookup_none_of {j : List (K × Nat)} {k : K} (h : ∀ y ∈ j, y.1 ≠ k) : j.lookup k = none := by
  induction j with
  | nil => rfl
  | cons y ys ih =>
    have : (k == y.1) = false := by
      rw [beq_eq_false_iff_ne]; exact fun e => h y (by simp) e.symm
    rw [List.lookup_cons, this]
    exact ih (fun z hz => h z (by simp [hz]))

omit [DecidableEq K] in
theorem mem_numbered {l : List (K × V)} {y : K × Nat} (h : y ∈ numbered l) : ∃ x ∈ l, x.1 = y.1 := by
  induction l generalizing y with
  | nil => cases h
  | cons a as ih =>
    simp only [numbered, List.mem_append, List.mem_map, List.mem_singleton] at h
    rcases h with ⟨z, hz, rfl⟩ | rfl
    · obtain ⟨x, hx, e⟩ := ih hz
      exact ⟨x, by simp [hx], e⟩
    · exact ⟨a, by simp, rfl⟩

theorem lookup_append_none {a b : List (K × Nat)} {k : K} (h : a.lookup k = none) :
    (a ++ b).lookup k = b.lookup k := by
  induction a with
  | nil => rfl
  | cons y ys ih =>
    rw [List.lookup_cons] at h
    rw [List.cons_append, List.lookup_cons]
    cases hy : k == y.1 with
    | true => rw [hy] at h; cases h
    | false => rw [hy] at h; exact ih h

theorem lookup_split {pre post : List (K × V)} {k : K} {v : V} (h : ∀ x ∈ post, x.1 ≠ k) :
    (numbered (pre ++ (k, v) :: post)).lookup k = some pre.length := by
  rw [List.append_cons, numbered_append, lookup_append_none]
  · rw [numbered_concat, List.lookup_cons]
    simp
  · refine lookup_none_of ?_
    intro y hy
    obtain ⟨z, hz, rfl⟩ := List.mem_map.mp hy
    obtain ⟨x, hx, e⟩ := mem_numbered hz
    simp only
    rw [← e]
    exact h x hx

/-- **C13.** Resuming from a key: if `(k, v)` is the last append under `k`, with `post` appended after it,
then `iter_from(k)` yields `v`, then the values of `post` in order, then ends; `get_next(k)` is the first
value of `post`. -/
theorem C13_resume (p : Params) (hp : 16 ∣ p.minMmap) (c : Codec K V) (hc : c.Lawful) (onDisk : Bool)
    (ops : List (MOp K V)) (hk : ∀ op ∈ ops, Kept onDisk op) (hbytes : mBytes c ops < 2 ^ 60) (m m' : ILM)
    (hm : Ilm.fresh p onDisk true = .ok m) (hm' : (mAfter p c onDisk m [] ops).1 = m')
    (k : K) (hek : (c.encK k).isSome) (v : V) (pre post : List (K × V))
    (hsplit : appended c ops = pre ++ (k, v) :: post) (hpost : ∀ x ∈ post, x.1 ≠ k) :
    ∃ i, Ilm.iterFrom c m' k = .ok (some i) ∧
      (∀ n, items p c m' n i = valuesThenEnd ((k, v) :: post) n) ∧
      Ilm.getNext p c m' (some k) = .ok (post.head?.map Prod.snd) := by
  obtain ⟨its, hr⟩ := kept_rel p hp c hc onDisk ops hk hbytes m hm
  rw [hm', hsplit] at hr
  have hl := lookup_split (pre := pre) (v := v) hpost
  refine ⟨pre.length, ?_, ?_, ?_⟩
  · rw [hr.iterFrom_eq hc k]
    simp [MSpec.keyed, hek, hl]
  · intro n
    rw [items_eq hc hr hbytes n pre.length (by simp)]
    simp
  · rw [hr.getNext_eq hc hbytes k]
    simp only [MSpec.keyed, hek, hl, if_true, Option.bind_some, MSpec.at_]
    rw [List.getElem?_append_right (by omega)]
    simp [List.head?_eq_getElem?]

/-- **C13.** A key that was never appended has no iterator and no next value; `get_next` from nothing is
the first value. -/
theorem C13_unknown (p : Params) (hp : 16 ∣ p.minMmap) (c : Codec K V) (hc : c.Lawful) (onDisk : Bool)
    (ops : List (MOp K V)) (hk : ∀ op ∈ ops, Kept onDisk op) (hbytes : mBytes c ops < 2 ^ 60) (m m' : ILM)
    (hm : Ilm.fresh p onDisk true = .ok m) (hm' : (mAfter p c onDisk m [] ops).1 = m') :
    (∀ k, (c.encK k).isSome → (∀ x ∈ appended c ops, x.1 ≠ k) →
      Ilm.iterFrom c m' k = .ok none ∧ Ilm.getNext p c m' (some k) = .ok none) ∧
    Ilm.getNext p c m' none = .ok ((appended c ops).head?.map Prod.snd) := by
  obtain ⟨its, hr⟩ := kept_rel p hp c hc onDisk ops hk hbytes m hm
  rw [hm'] at hr
  refine ⟨?_, ?_⟩
  · intro k hek hno
    have hl : (numbered (appended c ops)).lookup k = none := by
      refine lookup_none_of ?_
      intro y hy
      obtain ⟨x, hx, e⟩ := mem_numbered hy
      rw [← e]
      exact hno x hx
    rw [hr.iterFrom_eq hc k, hr.getNext_eq hc hbytes k]
    simp [MSpec.keyed, hek, hl]
  · have := (hr.step hp hc (.getNext none) (by simpa [MOp.bytes] using hbytes)).1
    simp only [mStep, mSpecStep, MResp.value.injEq] at this
    rw [this]
    simp [MSpec.at_, List.head?_eq_getElem?]

/-- A history of six calls on a `u64` map, with a repeated key and a reopen. -/
def sampleMap : List (MOp Nat Nat) :=
  [.append 1 100, .append 2 300, .reopen true, .append 1 70000, .get 1, .append 5 (2 ^ 64), .append 3 4]

example : 16 ∣ Params.code.minMmap ∧ cborCodec.Lawful ∧ mBytes cborCodec sampleMap < 2 ^ 60 ∧
    (∀ op ∈ sampleMap, Kept true op) ∧
    appended cborCodec sampleMap = [(1, 100), (2, 300)] ++ (1, 70000) :: [(3, 4)] := by
  refine ⟨by decide, cborCodec_lawful, by decide, ?_, by decide⟩
  intro op hop
  simp only [sampleMap, List.mem_cons, List.not_mem_nil, or_false] at hop
  rcases hop with rfl | rfl | rfl | rfl | rfl | rfl | rfl <;> simp [Kept]

/-- **C14.** At every point of every history of calls and crashes: each entry of the key index is the
encoding of a key and of the position of a record appended under that key, which the log still has. -/
theorem C14_keys_designate (p : Params) (hp : 16 ∣ p.minMmap) (hmin : p.minMmap < 2 ^ 62) (c : Codec K V)
    (hc : c.Lawful) (m : ILM) (s : MSpec K V) (used : Nat) (h : MReached p c m s used)
    (hu : used < 2 ^ 59) (kb pb : List UInt8) (he : (kb, pb) ∈ m.journal) :
    ∃ k i v, c.encK k = some kb ∧ posDec pb = some i ∧ s.log[i]? = some (k, v) ∧
      ∃ vb, c.encV v = some vb ∧ m.db.get p i = .ok (some vb) := by
  have hr := h.rel hp hmin hc hu
  rw [hr.jr] at he
  obtain ⟨⟨k, i⟩, hx, e⟩ := List.mem_map.mp he
  simp only [Prod.mk.injEq] at e
  obtain ⟨rfl, rfl⟩ := e
  obtain ⟨kb, hkb⟩ := Option.isSome_iff_exists.mp (hr.encK _ hx)
  obtain ⟨v, hv⟩ := hr.ok _ hx
  simp only at hkb hv
  obtain ⟨vb, hvb⟩ := Option.isSome_iff_exists.mp (hr.encV _ (List.mem_of_getElem? hv))
  simp only at hvb
  obtain ⟨es, C, hinv, _⟩ := hr.good.ex
  have h1 := (List.getElem?_eq_some_iff.mp hv).1
  have h2 := hr.length_lt (by omega)
  refine ⟨k, i, v, by rw [hkb]; rfl, posDec_posEnc i, hv, vb, hvb, ?_⟩
  rw [hinv.get_ok (by omega), records_getElem?, hv]
  simp [hvb]

/-- **C14.** Calls never fail because of earlier crashes, and `get` only returns values appended under the
key asked for. -/
theorem C14_get (p : Params) (hp : 16 ∣ p.minMmap) (hmin : p.minMmap < 2 ^ 62) (c : Codec K V)
    (hc : c.Lawful) (m : ILM) (s : MSpec K V) (used : Nat) (h : MReached p c m s used)
    (hu : used < 2 ^ 59) (hidx : m.indexed = true) (k : K) (hk : (c.encK k).isSome) :
    Ilm.get p c m k = .ok none ∨ ∃ v, Ilm.get p c m k = .ok (some v) ∧ (k, v) ∈ s.log := by
  have hr := h.rel hp hmin hc hu
  have hg := hr.get_eq hc (by omega) k
  rw [hg]
  have hi := hr.indexed
  rw [hidx] at hi
  simp only [MSpec.keyed, ← hi, if_true, hk]
  cases hl : s.journal.lookup k with
  | none => exact .inl rfl
  | some i =>
    right
    obtain ⟨v, hv⟩ := hr.ok _ (lookup_mem hl)
    exact ⟨v, by simp only at hv; simp [MSpec.at_, hv], List.mem_of_getElem? hv⟩

/-- **C14.** `iter()` shows every value of the log, also those whose key was lost in a crash. -/
theorem C14_iter (p : Params) (hp : 16 ∣ p.minMmap) (hmin : p.minMmap < 2 ^ 62) (c : Codec K V)
    (hc : c.Lawful) (m : ILM) (s : MSpec K V) (used : Nat) (h : MReached p c m s used)
    (hu : used < 2 ^ 59) (n : Nat) :
    items p c m n 0 = valuesThenEnd s.log n := by
  have hr := h.rel hp hmin hc hu
  simpa using items_eq hc hr (by omega) n 0 (Nat.zero_le _)

/-- **C14.** After a crash at any point of an append, the map can be opened again. It has all values it had,
and possibly the one in flight; the key index is an earlier one; and all later calls are answered
accordingly. -/
theorem C14_recovers (p : Params) (hp : 16 ∣ p.minMmap) (hmin : p.minMmap < 2 ^ 62) (c : Codec K V)
    (hc : c.Lawful) (m : ILM) (s : MSpec K V) (used : Nat) (h : MReached p c m s used)
    (inFlight : List (K × V)) (hone : inFlight.length ≤ 1)
    (henc : ∀ x ∈ inFlight, m.indexed = true ∧ (c.encK x.1).isSome ∧ (c.encV x.2).isSome)
    (fd fi : Blob) (j lost : Nat)
    (hcr : Crash p m.db (inFlight.map (fun x => (c.encV x.2).getD [])) fd fi j)
    (indexed : Bool) (later : List (MOp K V))
    (hbytes : used + (inFlight.map (fun x => ((c.encV x.2).getD []).length)).sum + mBytes c later < 2 ^ 59) :
    ∃ db, DB.openDB p (some fd) (some fi) true = .ok db ∧
      mRun p c true ⟨db, m.journal.drop lost, indexed⟩ [] later =
        mSpecRun c true ⟨s.log ++ inFlight.take j, s.journal.drop lost, indexed, []⟩ later := by
  have hr := h.rel hp hmin hc (by omega)
  have hsum : ((inFlight.map (fun x => (c.encV x.2).getD [])).map List.length).sum =
      (inFlight.map (fun x => ((c.encV x.2).getD []).length)).sum := by
    rw [List.map_map]; rfl
  obtain ⟨hdisk, _⟩ := hcr.disk hp hmin hr.good (by omega)
  obtain ⟨db1, es, C, e, _⟩ := open_spec (p := p) hdisk true
  have h2 := (MReached.crash (lost := lost) (indexed := indexed) inFlight h hone henc hcr e).rel hp hmin hc
    (by omega)
  exact ⟨db1, e, (h2.run hp hc later (by omega)).1⟩

/-- What does not survive a crash: the newest value of a key. The log has `(1, 20)` after `(1, 10)`, both
acknowledged, but the insertion of the second position into the key index was lost, and `get(1)` is 10. -/
theorem C14_latest_after_crash_false :
    ∃ (m : ILM) (s : MSpec Nat Nat) (used : Nat), used < 2 ^ 59 ∧ MReached Params.code cborCodec m s used ∧
      s.log = [(1, 10), (1, 20)] ∧ Ilm.get Params.code cborCodec m 1 = .ok (some 10) := by
  have hp : 16 ∣ Params.code.minMmap := by decide
  have hmin : Params.code.minMmap < 2 ^ 62 := by decide
  obtain ⟨m, e, _⟩ := fresh_rel Params.code cborCodec true true
  have h0 : MReached Params.code cborCodec m _ 0 := .fresh e
  have h1 := h0.call (.append 1 10)
  have h2 := h1.call (.append 1 20)
  have hr := h2.rel hp hmin cborCodec_lawful (by decide)
  have hm2 := hr.good.mode
  obtain ⟨fi, hfi⟩ := Option.isSome_iff_exists.mp hm2
  obtain ⟨es, C, hinv, _⟩ := hr.good.ex
  obtain ⟨fd, hfd⟩ := Option.isSome_iff_exists.mp (hinv.mode.trans hm2)
  have hcr := Crash.idle (p := Params.code) (batch := []) hfd hfi
  obtain ⟨db, hdb, _⟩ := C14_recovers Params.code hp hmin cborCodec cborCodec_lawful _ _ _ h2 [] (by simp)
    (by simp) fd fi 0 1 hcr true [] (by decide)
  have h3 := MReached.crash (lost := 1) (indexed := true) [] h2 (by simp) (by simp) hcr hdb
  have hr3 := h3.rel hp hmin cborCodec_lawful (by decide)
  refine ⟨_, _, _, by decide, h3, by decide, ?_⟩
  rw [hr3.get_eq cborCodec_lawful (by decide) 1]
  decide

end Verif.Props
