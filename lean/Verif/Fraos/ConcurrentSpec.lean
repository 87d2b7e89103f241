import Verif.Fraos.ConcurrentLemmas

/-! # What runs of the specification guarantee -/

namespace Verif.Fraos

/-- Meaning of an answer, with respect to the records and the count at the end. -/
def Fact (sys : Bool) (log : List (List UInt8)) (counted : Nat) : Call → Resp → Prop
  | .append b, .seqno (.ok (some k)) =>
    b ≠ [] ∧ [] ∉ b ∧ k + b.length ≤ counted ∧ ∀ j, j < b.length → log[k + j]? = b[j]?
  | .append b, .seqno (.ok none) => b = []
  | .append b, .seqno (.error e) => ([] ∈ b ∧ e = .emptyRecord) ∨
    (sys = true ∧ b ≠ [] ∧ [] ∉ b ∧ (e = .extend ∨ e = .mmap))
  | .get i, .record (.ok (some r)) => log[i]? = some r
  | .get _, .record (.ok none) => True
  | .len, .number m => m ≤ counted
  | _, _ => False

/-- The blocks of numbers given out in a trace. -/
def acks {n : Nat} : List (Ev n) → List (Nat × List (List UInt8))
  | [] => []
  | .ret _ (.append b) (.seqno (.ok (some k))) :: tr => (k, b) :: acks tr
  | _ :: tr => acks tr

/-- Two blocks of numbers have nothing in common. -/
def Disj (x y : Nat × List (List UInt8)) : Prop :=
  x.1 + x.2.length ≤ y.1 ∨ y.1 + y.2.length ≤ x.1

/-- The block a thread has been given but not yet reported. -/
def owned : APC → Option (Nat × List (List UInt8))
  | .shown b k => some (k, b)
  | .ready (.append b) (.seqno (.ok (some k))) => some (k, b)
  | _ => none

variable {sys : Bool}

theorem Fact.mono {log log' : List (List UInt8)} {m m' : Nat} (hl : log <+: log') (hm : m ≤ m')
    {c : Call} {r : Resp} (hf : Fact sys log m c r) (hc : m ≤ log.length) : Fact sys log' m' c r := by
  obtain ⟨x, rfl⟩ := hl
  unfold Fact at hf ⊢
  split at hf
  · obtain ⟨h1, h2, h3, h4⟩ := hf
    refine ⟨h1, h2, by omega, ?_⟩
    intro j hj
    rw [List.getElem?_append_left (by omega)]
    exact h4 j hj
  · exact hf
  · exact hf
  · rw [List.getElem?_append_left (List.getElem?_eq_some_iff.mp hf).1]
    exact hf
  · exact hf
  · exact le_trans hf hm
  · exact hf.elim

theorem acks_append {n : Nat} (a b : List (Ev n)) : acks (a ++ b) = acks a ++ acks b := by
  induction a with
  | nil => rfl
  | cons e a ih =>
    cases e with
    | inv t c => exact ih
    | ret t c r =>
      rw [List.cons_append]
      conv_lhs => unfold acks
      split
      · rename_i h; cases h
      · rename_i h; cases h; simp [acks, ih]
      · rename_i h1 h2
        cases h2
        rw [ih]
        congr 1
        conv_rhs => unfold acks
        split
        · rename_i h; cases h
        · rename_i h; cases h; exact absurd rfl (h1 _ _ _)
        · rename_i h; cases h; rfl

theorem acks_single {n : Nat} (t : Fin n) (c : Call) (r : Resp) :
    acks [Ev.ret t c r] = (owned (.ready c r)).toList := by
  unfold owned
  split
  · rename_i h; cases h
  · rename_i h; cases h; rfl
  · rename_i h1 h2
    unfold acks
    split
    · rename_i heq; cases heq
    · rename_i t' b k tr heq
      simp only [List.cons.injEq, Ev.ret.injEq] at heq
      obtain ⟨⟨_, rfl, rfl⟩, rfl⟩ := heq
      exact absurd rfl (h2 b k)
    · rename_i e tr _ heq
      simp only [List.cons.injEq] at heq
      obtain ⟨_, rfl⟩ := heq
      rfl

theorem owned_ready {c : Call} {r : Resp} {x : Nat × List (List UInt8)}
    (h : owned (.ready c r) = some x) : c = .append x.2 ∧ r = .seqno (.ok (some x.1)) := by
  unfold owned at h
  split at h
  · rename_i h'; cases h'
  · rename_i h'; cases h'; cases h; exact ⟨rfl, rfl⟩
  · cases h

/-- Invariant of the specification. -/
structure AInv (sys : Bool) {n : Nat} (tr : List (Ev n)) (a : AState n) : Prop where
  le : a.counted ≤ a.log.length
  shown : ∀ t b k, a.pcs t = .shown b k → b ≠ [] ∧ [] ∉ b ∧ k = a.counted ∧ k + b.length = a.log.length ∧
    ∀ j, j < b.length → a.log[k + j]? = b[j]?
  ready : ∀ t c r, a.pcs t = .ready c r → Fact sys a.log a.counted c r
  rets : ∀ t c r, Ev.ret t c r ∈ tr → Fact sys a.log a.counted c r
  alone : ∀ t u b k b' k', a.pcs t = .shown b k → a.pcs u = .shown b' k' → t = u
  settled : a.counted = a.log.length ∨ ∃ t b k, a.pcs t = .shown b k
  disj : (acks tr).Pairwise Disj
  disjOwn : ∀ t x, owned (a.pcs t) = some x → ∀ y ∈ acks tr, Disj x y
  disjTwo : ∀ t u x y, t ≠ u → owned (a.pcs t) = some x → owned (a.pcs u) = some y → Disj x y
  inside : (∀ y ∈ acks tr, y.1 + y.2.length ≤ a.log.length) ∧
    ∀ t x, owned (a.pcs t) = some x → x.1 + x.2.length ≤ a.log.length
  cover : ∀ i, i < a.log.length → (∃ y ∈ acks tr, y.1 ≤ i ∧ i < y.1 + y.2.length) ∨
    ∃ t x, owned (a.pcs t) = some x ∧ x.1 ≤ i ∧ i < x.1 + x.2.length

theorem update_cases {α : Type} {n : Nat} {f : Fin n → α} {t u : Fin n} {x y : α}
    (h : Function.update f t x u = y) : (u = t ∧ x = y) ∨ (u ≠ t ∧ f u = y) := by
  by_cases htu : u = t
  · subst htu; rw [Function.update_self] at h; exact .inl ⟨rfl, h⟩
  · rw [Function.update_of_ne htu] at h; exact .inr ⟨htu, h⟩

theorem owned_update {n : Nat} {f : Fin n → APC} {t u : Fin n} {x : APC}
    {y : Nat × List (List UInt8)} (h : owned (Function.update f t x u) = some y) :
    (u = t ∧ owned x = some y) ∨ (u ≠ t ∧ owned (f u) = some y) := by
  by_cases htu : u = t
  · subst htu; rw [Function.update_self] at h; exact .inl ⟨rfl, h⟩
  · rw [Function.update_of_ne htu] at h; exact .inr ⟨htu, h⟩

/-- A thread that has no block moves to a state where it has none. -/
theorem AInv.quiet {n : Nat} {tr tr' : List (Ev n)} {a : AState n} (h : AInv sys tr a) {t : Fin n} {ac : APC}
    (h0 : owned (a.pcs t) = none) (h1 : owned ac = none)
    (hr : ∀ c r, ac = .ready c r → Fact sys a.log a.counted c r)
    (htr : acks tr' = acks tr)
    (hrets : ∀ u c r, Ev.ret u c r ∈ tr' → Fact sys a.log a.counted c r) :
    AInv sys tr' { a with pcs := Function.update a.pcs t ac } := by
  have hsh : ∀ b k, ac ≠ .shown b k := by rintro b k rfl; cases h1
  have hsh0 : ∀ b k, a.pcs t ≠ .shown b k := by
    intro b k hc; rw [hc] at h0; cases h0
  refine ⟨h.le, ?_, ?_, hrets, ?_, ?_, by rw [htr]; exact h.disj, ?_, ?_, ⟨by rw [htr]; exact h.inside.1, ?_⟩, ?_⟩
  · intro u b k hu
    rcases update_cases hu with ⟨_, he⟩ | ⟨_, he⟩
    · exact absurd he (hsh b k)
    · exact h.shown u b k he
  · intro u c r hu
    rcases update_cases hu with ⟨_, he⟩ | ⟨_, he⟩
    · exact hr c r he
    · exact h.ready u c r he
  · intro u v b k b' k' hu hv
    rcases update_cases hu with ⟨_, he⟩ | ⟨_, he⟩
    · exact absurd he (hsh b k)
    · rcases update_cases hv with ⟨_, he'⟩ | ⟨_, he'⟩
      · exact absurd he' (hsh b' k')
      · exact h.alone u v b k b' k' he he'
  · rcases h.settled with hs | ⟨u, b, k, hu⟩
    · exact .inl hs
    · refine .inr ⟨u, b, k, ?_⟩
      have : u ≠ t := by rintro rfl; exact hsh0 b k hu
      simp only
      rw [Function.update_of_ne this]; exact hu
  · intro u x hu y hy
    rw [htr] at hy
    rcases owned_update hu with ⟨_, he⟩ | ⟨_, he⟩
    · rw [h1] at he; cases he
    · exact h.disjOwn u x he y hy
  · intro u v x y huv hu hv
    rcases owned_update hu with ⟨_, he⟩ | ⟨_, he⟩
    · rw [h1] at he; cases he
    · rcases owned_update hv with ⟨_, he'⟩ | ⟨_, he'⟩
      · rw [h1] at he'; cases he'
      · exact h.disjTwo u v x y huv he he'
  · intro u x hu
    rcases owned_update hu with ⟨_, he⟩ | ⟨_, he⟩
    · rw [h1] at he; cases he
    · exact h.inside.2 u x he
  · intro i hi
    rcases h.cover i hi with hc | ⟨u, x, hu, hx⟩
    · left; rw [htr]; exact hc
    · right
      have : u ≠ t := by rintro rfl; rw [h0] at hu; cases hu
      refine ⟨u, x, ?_, hx⟩
      simp only
      rw [Function.update_of_ne this]; exact hu

theorem AInv.step {n : Nat} {tr : List (Ev n)} {a a' : AState n} (h : AInv sys tr a) {ev : Option (Ev n)}
    (hs : AStep sys a ev a') : AInv sys (tr ++ ev.toList) a' := by
  have hnil : ∀ e : Option (Ev n), e = none → tr ++ e.toList = tr := by rintro _ rfl; simp
  cases hs with
  | @invoke t c ht =>
    refine h.quiet (by rw [ht]; rfl) rfl (by intro _ _ h; cases h) ?_ ?_
    · rw [acks_append]; simp [acks]
    · intro u c' r hm
      simp only [Option.toList_some, List.mem_append, List.mem_singleton] at hm
      rcases hm with hm | hm
      · exact h.rets u c' r hm
      · cases hm
  | @none_ t ht =>
    rw [hnil _ rfl]
    exact h.quiet (by rw [ht]; rfl) rfl (by intro _ _ h; cases h; rfl) rfl h.rets
  | @refuse t b ht hb =>
    rw [hnil _ rfl]
    exact h.quiet (by rw [ht]; rfl) rfl (by intro _ _ h; cases h; exact .inl ⟨hb, rfl⟩) rfl h.rets
  | @fail t b e ht hsys hb hne he =>
    rw [hnil _ rfl]
    exact h.quiet (by rw [ht]; rfl) rfl (by intro _ _ h; cases h; exact .inr ⟨hsys, hb, hne, he⟩) rfl h.rets
  | @read t i ht =>
    rw [hnil _ rfl]
    refine h.quiet (by rw [ht]; rfl) rfl ?_ rfl h.rets
    intro c r hr
    cases hr
    cases hx : a.log[i]? with
    | none => trivial
    | some v => exact hx
  | @tally t ht =>
    rw [hnil _ rfl]
    exact h.quiet (by rw [ht]; rfl) rfl (by intro _ _ h; cases h; exact le_refl _) rfl h.rets
  | @put t b ht hb hne hc =>
    rw [hnil _ rfl]
    have hpre : a.log <+: a.log ++ b := List.prefix_append _ _
    have hnone : ∀ u b' k, a.pcs u ≠ .shown b' k := by
      intro u b' k hu
      have h1 := h.shown u b' k hu
      have := List.length_pos_of_ne_nil h1.1
      omega
    refine ⟨?_, ?_, ?_, ?_, ?_, ?_, h.disj, ?_, ?_, ⟨?_, ?_⟩, ?_⟩
    · simp only [List.length_append]; have := h.le; omega
    · intro u b' k hu
      rcases update_cases hu with ⟨_, he⟩ | ⟨_, he⟩
      · cases he
        refine ⟨hb, hne, hc.symm, by simp, ?_⟩
        intro j hj
        simp only
        rw [List.getElem?_append_right (by omega), Nat.add_sub_cancel_left]
      · exact absurd he (hnone u b' k)
    · intro u c r hu
      rcases update_cases hu with ⟨_, he⟩ | ⟨_, he⟩
      · cases he
      · exact (h.ready u c r he).mono hpre (le_refl _) h.le
    · intro u c r hm
      exact (h.rets u c r hm).mono hpre (le_refl _) h.le
    · intro u v b' k b'' k' hu hv
      rcases update_cases hu with ⟨hu1, _⟩ | ⟨_, he⟩
      · rcases update_cases hv with ⟨hv1, _⟩ | ⟨_, he'⟩
        · rw [hu1, hv1]
        · exact absurd he' (hnone v b'' k')
      · exact absurd he (hnone u b' k)
    · exact .inr ⟨t, b, a.log.length, by simp⟩
    · intro u x hu y hy
      rcases owned_update hu with ⟨_, he⟩ | ⟨_, he⟩
      · cases he
        exact .inr (h.inside.1 y hy)
      · exact h.disjOwn u x he y hy
    · intro u v x y huv hu hv
      rcases owned_update hu with ⟨hu1, he⟩ | ⟨_, he⟩
      · cases he
        rcases owned_update hv with ⟨hv1, _⟩ | ⟨_, he'⟩
        · exact absurd (hu1.trans hv1.symm) huv
        · exact .inr (h.inside.2 v y he')
      · rcases owned_update hv with ⟨_, he'⟩ | ⟨_, he'⟩
        · cases he'
          exact .inl (h.inside.2 u x he)
        · exact h.disjTwo u v x y huv he he'
    · intro y hy
      have := h.inside.1 y hy
      simp only [List.length_append]; omega
    · intro u x hu
      simp only [List.length_append]
      rcases owned_update hu with ⟨_, he⟩ | ⟨_, he⟩
      · cases he; simp
      · have := h.inside.2 u x he; omega
    · intro i hi
      simp only [List.length_append] at hi
      by_cases hi' : i < a.log.length
      · rcases h.cover i hi' with hc' | ⟨u, x, hu, hx⟩
        · exact .inl hc'
        · right
          have : u ≠ t := by rintro rfl; rw [ht] at hu; cases hu
          refine ⟨u, x, ?_, hx⟩
          simp only
          rw [Function.update_of_ne this]; exact hu
      · right
        exact ⟨t, (a.log.length, b), by simp [owned], by simp only; omega, by simp only; omega⟩
  | @count t b k ht =>
    rw [hnil _ rfl]
    obtain ⟨hb, hne, hk, hlen, hat⟩ := h.shown t b k ht
    have hown : ∀ u x, owned (Function.update a.pcs t
        (.ready (.append b) (.seqno (.ok (some k)))) u) = some x → owned (a.pcs u) = some x := by
      intro u x hu
      rcases owned_update hu with ⟨hu1, he⟩ | ⟨_, he⟩
      · subst hu1; rw [ht]; exact he
      · exact he
    refine ⟨le_refl _, ?_, ?_, ?_, ?_, .inl rfl, h.disj, fun u x hu => h.disjOwn u x (hown u x hu),
      fun u v x y huv hu hv => h.disjTwo u v x y huv (hown u x hu) (hown v y hv),
      ⟨h.inside.1, fun u x hu => h.inside.2 u x (hown u x hu)⟩, ?_⟩
    · intro u b' k' hu
      rcases update_cases hu with ⟨_, he⟩ | ⟨hne', he⟩
      · cases he
      · exact absurd (h.alone u t b' k' b k he ht) hne'
    · intro u c r hu
      rcases update_cases hu with ⟨_, he⟩ | ⟨_, he⟩
      · cases he
        exact ⟨hb, hne, by simp only; omega, hat⟩
      · exact (h.ready u c r he).mono (List.prefix_refl _) h.le h.le
    · intro u c r hm
      exact (h.rets u c r hm).mono (List.prefix_refl _) h.le h.le
    · intro u v b' k' b'' k'' hu hv
      rcases update_cases hu with ⟨_, he⟩ | ⟨_, he⟩
      · cases he
      · rcases update_cases hv with ⟨_, he'⟩ | ⟨_, he'⟩
        · cases he'
        · exact h.alone u v b' k' b'' k'' he he'
    · intro i hi
      rcases h.cover i hi with hc' | ⟨u, x, hu, hx⟩
      · exact .inl hc'
      · right
        refine ⟨u, x, ?_, hx⟩
        simp only
        by_cases htu : u = t
        · subst htu; rw [Function.update_self]; rw [ht] at hu; exact hu
        · rw [Function.update_of_ne htu]; exact hu
  | @answer t c r ht =>
    have hacks : acks (tr ++ (some (Ev.ret t c r)).toList) = acks tr ++ (owned (.ready c r)).toList := by
      rw [acks_append, Option.toList_some, acks_single]
    have hsh : ∀ b k, a.pcs t ≠ .shown b k := by intro b k hc; rw [ht] at hc; cases hc
    have hown : ∀ u x, owned (Function.update a.pcs t APC.idle u) = some x → u ≠ t ∧ owned (a.pcs u) = some x := by
      intro u x hu
      rcases owned_update hu with ⟨_, he⟩ | h1
      · cases he
      · exact h1
    refine ⟨h.le, ?_, ?_, ?_, ?_, ?_, ?_, ?_, ?_, ⟨?_, ?_⟩, ?_⟩
    · intro u b k hu
      rcases update_cases hu with ⟨_, he⟩ | ⟨_, he⟩
      · cases he
      · exact h.shown u b k he
    · intro u c' r' hu
      rcases update_cases hu with ⟨_, he⟩ | ⟨_, he⟩
      · cases he
      · exact h.ready u c' r' he
    · intro u c' r' hm
      simp only [Option.toList_some, List.mem_append, List.mem_singleton] at hm
      rcases hm with hm | hm
      · exact h.rets u c' r' hm
      · cases hm
        exact h.ready t c r ht
    · intro u v b' k' b'' k'' hu hv
      rcases update_cases hu with ⟨_, he⟩ | ⟨_, he⟩
      · cases he
      · rcases update_cases hv with ⟨_, he'⟩ | ⟨_, he'⟩
        · cases he'
        · exact h.alone u v b' k' b'' k'' he he'
    · rcases h.settled with hs | ⟨u, b, k, hu⟩
      · exact .inl hs
      · refine .inr ⟨u, b, k, ?_⟩
        have : u ≠ t := by rintro rfl; exact hsh b k hu
        simp only
        rw [Function.update_of_ne this]; exact hu
    · rw [hacks, List.pairwise_append]
      refine ⟨h.disj, ?_, ?_⟩
      · cases owned (.ready c r) <;> simp
      · intro y hy x hx
        rw [Option.mem_toList, ← ht] at hx
        exact Or.symm (h.disjOwn t x hx y hy)
    · intro u x hu y hy
      obtain ⟨hne', hu'⟩ := hown u x hu
      rw [hacks, List.mem_append] at hy
      rcases hy with hy | hy
      · exact h.disjOwn u x hu' y hy
      · rw [Option.mem_toList, ← ht] at hy
        exact h.disjTwo u t x y hne' hu' hy
    · intro u v x y huv hu hv
      exact h.disjTwo u v x y huv (hown u x hu).2 (hown v y hv).2
    · intro y hy
      rw [hacks, List.mem_append] at hy
      rcases hy with hy | hy
      · exact h.inside.1 y hy
      · rw [Option.mem_toList, ← ht] at hy
        exact h.inside.2 t y hy
    · intro u x hu
      exact h.inside.2 u x (hown u x hu).2
    · intro i hi
      rw [hacks]
      rcases h.cover i hi with ⟨y, hy, hyi⟩ | ⟨u, x, hu, hx⟩
      · exact .inl ⟨y, by simp [hy], hyi⟩
      · by_cases htu : u = t
        · subst htu
          rw [ht] at hu
          exact .inl ⟨x, by simp [hu], hx⟩
        · right
          refine ⟨u, x, ?_, hx⟩
          simp only
          rw [Function.update_of_ne htu]; exact hu

theorem AInv.exec {n : Nat} {tr : List (Ev n)} {a : AState n} (hx : Exec (AStep sys) (ainit n) tr a) :
    AInv sys tr a := by
  induction hx with
  | nil =>
    refine ⟨le_refl _, ?_, ?_, by simp, ?_, .inl rfl, by simp [acks], by simp [acks], ?_, ⟨by simp [acks], ?_⟩, ?_⟩
    · intro t b k h; cases h
    · intro t c r h; cases h
    · intro t u b k b' k' h; cases h
    · intro t u x y _ h; cases h
    · intro t x h; cases h
    · intro i hi; simp [ainit] at hi
  | silent _ hs ih => simpa using ih.step hs
  | event _ hs ih => simpa using ih.step hs

/-! ### Runs in parts -/

theorem Exec.split {S E : Type} {step : S → Option E → S → Prop} {s0 s : S} {tr : List E}
    (h : Exec step s0 tr s) : ∀ tr1 tr2, tr = tr1 ++ tr2 →
      ∃ s1, Exec step s0 tr1 s1 ∧ Exec step s1 tr2 s := by
  induction h with
  | nil =>
    intro tr1 tr2 he
    obtain ⟨rfl, rfl⟩ := List.append_eq_nil_iff.mp he.symm
    exact ⟨s0, .nil, .nil⟩
  | silent _ hs ih =>
    intro tr1 tr2 he
    obtain ⟨s1, h1, h2⟩ := ih tr1 tr2 he
    exact ⟨s1, h1, .silent h2 hs⟩
  | @event tr s s' e hx hs ih =>
    intro tr1 tr2 he
    rcases List.eq_nil_or_concat tr2 with rfl | ⟨l, x, rfl⟩
    · rw [List.append_nil] at he
      subst he
      exact ⟨s', .event hx hs, .nil⟩
    · rw [List.concat_eq_append, ← List.append_assoc] at he
      obtain ⟨h1, h2⟩ := List.append_inj' he rfl
      cases h2
      obtain ⟨s1, h3, h4⟩ := ih tr1 l h1
      exact ⟨s1, h3, by rw [List.concat_eq_append]; exact .event h4 hs⟩

theorem Exec.one {S E : Type} {step : S → Option E → S → Prop} {s0 s : S} {e : E}
    (h : Exec step s0 [e] s) : ∃ s1 s2, Exec step s0 [] s1 ∧ step s1 (some e) s2 ∧ Exec step s2 [] s := by
  have key : ∀ tr s', Exec step s0 tr s' → tr = [e] →
      ∃ s1 s2, Exec step s0 [] s1 ∧ step s1 (some e) s2 ∧ Exec step s2 [] s' := by
    intro tr s' hx
    induction hx with
    | nil => intro h; cases h
    | silent _ hs ih =>
      intro h
      obtain ⟨s1, s2, h1, h2, h3⟩ := ih h
      exact ⟨s1, s2, h1, h2, .silent h3 hs⟩
    | @event tr s s' x hx hs _ =>
      intro h
      obtain ⟨h1, h2⟩ := List.append_inj' (show tr ++ [x] = [] ++ [e] from h) rfl
      cases h1; cases h2
      exact ⟨s, s', hx, hs, .nil⟩
  exact key [e] s h rfl

/-- One run after the other. -/
theorem Exec.append {S E : Type} {step : S → Option E → S → Prop} {x y z : S} {a b : List E} (h : Exec step x a y)
    (h' : Exec step y b z) : Exec step x (a ++ b) z := by
  induction h' with
  | nil => simpa using h
  | silent _ hs ih => exact .silent ih hs
  | event _ hs ih => rw [← List.append_assoc]; exact .event ih hs

/-- Something that holds at the start and is kept by every step. -/
theorem Exec.invariant {S E : Type} {step : S → Option E → S → Prop} {s0 : S} {P : List E → S → Prop} (h0 : P [] s0)
    (hstep : ∀ tr s ev s', P tr s → step s ev s' → P (tr ++ ev.toList) s') {tr : List E} {s : S}
    (hx : Exec step s0 tr s) : P tr s := by
  induction hx with
  | nil => exact h0
  | silent _ hs ih => simpa using hstep _ _ _ _ ih hs
  | event _ hs ih => exact hstep _ _ _ _ ih hs

/-- A run through an event. -/
theorem Exec.at {S E : Type} {step : S → Option E → S → Prop} {s0 s : S} {a b : List E} {e : E}
    (h : Exec step s0 (a ++ e :: b) s) : ∃ s1 s2, Exec step s0 a s1 ∧ step s1 (some e) s2 ∧ Exec step s2 b s := by
  obtain ⟨s1, h1, h2⟩ := h.split a _ rfl
  obtain ⟨s2, h3, h4⟩ := h2.split [e] b rfl
  obtain ⟨s3, s4, h5, h6, h7⟩ := h3.one
  exact ⟨s3, s4, by simpa using Exec.append h1 h5, h6, by simpa using Exec.append h7 h4⟩

/-- Records and the count only grow. -/
theorem AStep.grows {n : Nat} {a a' : AState n} {ev : Option (Ev n)} (hs : AStep sys a ev a')
    (hle : a.counted ≤ a.log.length) :
    a.log <+: a'.log ∧ a.counted ≤ a'.counted ∧ a'.counted ≤ a'.log.length := by
  cases hs <;> simp [hle] <;> omega

theorem Exec.grows {n : Nat} {a a' : AState n} {tr : List (Ev n)} (hx : Exec (AStep sys) a tr a')
    (hle : a.counted ≤ a.log.length) :
    a.log <+: a'.log ∧ a.counted ≤ a'.counted ∧ a'.counted ≤ a'.log.length := by
  induction hx with
  | nil => exact ⟨List.prefix_refl _, le_refl _, hle⟩
  | silent _ hs ih =>
    obtain ⟨h1, h2, h3⟩ := ih
    obtain ⟨h4, h5, h6⟩ := hs.grows h3
    exact ⟨h1.trans h4, le_trans h2 h5, h6⟩
  | event _ hs ih =>
    obtain ⟨h1, h2, h3⟩ := ih
    obtain ⟨h4, h5, h6⟩ := hs.grows h3
    exact ⟨h1.trans h4, le_trans h2 h5, h6⟩

theorem prefix_get {α : Type} {l l' : List α} (h : l <+: l') {i : Nat} {x : α} (hx : l[i]? = some x) :
    l'[i]? = some x := by
  obtain ⟨y, rfl⟩ := h
  rw [List.getElem?_append_left (List.getElem?_eq_some_iff.mp hx).1]; exact hx

/-- A read that starts when record `i` is there returns it. -/
theorem read_sees {n : Nat} {a a' : AState n} {tr : List (Ev n)} (hx : Exec (AStep sys) a tr a') {t : Fin n}
    {i : Nat} {v : List UInt8} (hle : a.counted ≤ a.log.length) (hv : a.log[i]? = some v)
    (hpc : a.pcs t = .start (.get i) ∨ a.pcs t = .ready (.get i) (.record (.ok (some v))))
    (htr : ∀ e ∈ tr, e.tid ≠ t) :
    a'.pcs t = .start (.get i) ∨ a'.pcs t = .ready (.get i) (.record (.ok (some v))) := by
  have key : ∀ {b b' : AState n} {ev : Option (Ev n)}, AStep sys b ev b' → b.log[i]? = some v →
      (∀ e, ev = some e → e.tid ≠ t) →
      (b.pcs t = .start (.get i) ∨ b.pcs t = .ready (.get i) (.record (.ok (some v)))) →
      (b'.pcs t = .start (.get i) ∨ b'.pcs t = .ready (.get i) (.record (.ok (some v)))) := by
    intro b b' ev hs hb hev hpc
    cases hs with
    | @invoke u c hu =>
      have : t ≠ u := fun h => hev _ rfl h.symm
      simp only; rw [Function.update_of_ne this]; exact hpc
    | @answer u c r hu =>
      have : t ≠ u := fun h => hev _ rfl h.symm
      simp only; rw [Function.update_of_ne this]; exact hpc
    | @read u j hu =>
      simp only
      by_cases htu : t = u
      · subst htu
        rw [Function.update_self]
        rw [hu] at hpc
        rcases hpc with h | h
        · cases h; right; rw [hb]
        · cases h
      · rw [Function.update_of_ne htu]; exact hpc
    | @none_ u hu =>
      have : t ≠ u := by rintro rfl; rw [hu] at hpc; rcases hpc with h | h <;> cases h
      simp only; rw [Function.update_of_ne this]; exact hpc
    | @refuse u b hu _ =>
      have : t ≠ u := by rintro rfl; rw [hu] at hpc; rcases hpc with h | h <;> cases h
      simp only; rw [Function.update_of_ne this]; exact hpc
    | @fail u b e hu _ _ _ _ =>
      have : t ≠ u := by rintro rfl; rw [hu] at hpc; rcases hpc with h | h <;> cases h
      simp only; rw [Function.update_of_ne this]; exact hpc
    | @put u b hu _ _ _ =>
      have : t ≠ u := by rintro rfl; rw [hu] at hpc; rcases hpc with h | h <;> cases h
      simp only; rw [Function.update_of_ne this]; exact hpc
    | @count u b k hu =>
      have : t ≠ u := by rintro rfl; rw [hu] at hpc; rcases hpc with h | h <;> cases h
      simp only; rw [Function.update_of_ne this]; exact hpc
    | @tally u hu =>
      have : t ≠ u := by rintro rfl; rw [hu] at hpc; rcases hpc with h | h <;> cases h
      simp only; rw [Function.update_of_ne this]; exact hpc
  induction hx with
  | nil => exact hpc
  | silent hx hs ih =>
    exact key hs (prefix_get (hx.grows hle).1 hv) (by simp) (ih htr)
  | event hx hs ih =>
    exact key hs (prefix_get (hx.grows hle).1 hv) (by intro e he; cases he; exact htr _ (by simp))
      (ih (fun e he => htr e (by simp [he])))

/-- A count that starts when `m` records are counted is at least `m`. -/
theorem len_sees {n : Nat} {a a' : AState n} {tr : List (Ev n)} (hx : Exec (AStep sys) a tr a') {t : Fin n}
    {m : Nat} (hle : a.counted ≤ a.log.length) (hv : m ≤ a.counted)
    (hpc : a.pcs t = .start .len ∨ ∃ k, m ≤ k ∧ a.pcs t = .ready .len (.number k))
    (htr : ∀ e ∈ tr, e.tid ≠ t) :
    a'.pcs t = .start .len ∨ ∃ k, m ≤ k ∧ a'.pcs t = .ready .len (.number k) := by
  have key : ∀ {b b' : AState n} {ev : Option (Ev n)}, AStep sys b ev b' → m ≤ b.counted →
      (∀ e, ev = some e → e.tid ≠ t) →
      (b.pcs t = .start .len ∨ ∃ k, m ≤ k ∧ b.pcs t = .ready .len (.number k)) →
      (b'.pcs t = .start .len ∨ ∃ k, m ≤ k ∧ b'.pcs t = .ready .len (.number k)) := by
    intro b b' ev hs hb hev hpc
    cases hs with
    | @invoke u c hu =>
      have : t ≠ u := fun h => hev _ rfl h.symm
      simp only; rw [Function.update_of_ne this]; exact hpc
    | @answer u c r hu =>
      have : t ≠ u := fun h => hev _ rfl h.symm
      simp only; rw [Function.update_of_ne this]; exact hpc
    | @tally u hu =>
      simp only
      by_cases htu : t = u
      · subst htu
        rw [Function.update_self]
        exact .inr ⟨_, hb, rfl⟩
      · rw [Function.update_of_ne htu]; exact hpc
    | @none_ u hu =>
      have : t ≠ u := by rintro rfl; rw [hu] at hpc; rcases hpc with h | ⟨_, _, h⟩ <;> cases h
      simp only; rw [Function.update_of_ne this]; exact hpc
    | @refuse u b hu _ =>
      have : t ≠ u := by rintro rfl; rw [hu] at hpc; rcases hpc with h | ⟨_, _, h⟩ <;> cases h
      simp only; rw [Function.update_of_ne this]; exact hpc
    | @fail u b e hu _ _ _ _ =>
      have : t ≠ u := by rintro rfl; rw [hu] at hpc; rcases hpc with h | ⟨_, _, h⟩ <;> cases h
      simp only; rw [Function.update_of_ne this]; exact hpc
    | @put u b hu _ _ _ =>
      have : t ≠ u := by rintro rfl; rw [hu] at hpc; rcases hpc with h | ⟨_, _, h⟩ <;> cases h
      simp only; rw [Function.update_of_ne this]; exact hpc
    | @count u b k hu =>
      have : t ≠ u := by rintro rfl; rw [hu] at hpc; rcases hpc with h | ⟨_, _, h⟩ <;> cases h
      simp only; rw [Function.update_of_ne this]; exact hpc
    | @read u j hu =>
      have : t ≠ u := by rintro rfl; rw [hu] at hpc; rcases hpc with h | ⟨_, _, h⟩ <;> cases h
      simp only; rw [Function.update_of_ne this]; exact hpc
  induction hx with
  | nil => exact hpc
  | silent hx hs ih =>
    exact key hs (le_trans hv (hx.grows hle).2.1) (by simp) (ih htr)
  | event hx hs ih =>
    exact key hs (le_trans hv (hx.grows hle).2.1) (by intro e he; cases he; exact htr _ (by simp))
      (ih (fun e he => htr e (by simp [he])))

/-- A trace in which, after `tr1`, thread `t` makes a call and gets its answer. -/
theorem exec_call {n : Nat} {tr1 tr2 tr3 : List (Ev n)} {t : Fin n} {c : Call} {r : Resp} {a : AState n}
    (hx : Exec (AStep sys) (ainit n) (tr1 ++ (.inv t c :: (tr2 ++ (.ret t c r :: tr3)))) a) :
    ∃ a1 a2 a3 a4, Exec (AStep sys) (ainit n) tr1 a1 ∧ Exec (AStep sys) a1 [] a2 ∧ a2.pcs t = .idle ∧
      Exec (AStep sys) { a2 with pcs := Function.update a2.pcs t (.start c) } tr2 a3 ∧
      Exec (AStep sys) a3 [] a4 ∧ a4.pcs t = .ready c r := by
  obtain ⟨a1, h1, h2⟩ := hx.split tr1 _ rfl
  obtain ⟨b1, h3, h4⟩ := h2.split [.inv t c] _ rfl
  obtain ⟨b2, b3, h5, h6, h7⟩ := h3.one
  obtain ⟨b4, h8, h9⟩ := h4.split tr2 _ rfl
  obtain ⟨b5, h10, h11⟩ := h9.split [.ret t c r] _ rfl
  obtain ⟨b6, b7, h12, h13, h14⟩ := h10.one
  cases h6 with
  | invoke hi =>
    cases h13 with
    | answer ha =>
      refine ⟨a1, b2, b4, b6, h1, h5, hi, ?_, h12, ha⟩
      -- silent steps before `tr2`
      have key : ∀ (x y z : AState n) (l : List (Ev n)), Exec (AStep sys) x [] y → Exec (AStep sys) y l z →
          Exec (AStep sys) x l z := by
        intro x y z l hxy hyz
        induction hyz with
        | nil => exact hxy
        | silent _ hs ih => exact .silent ih hs
        | event _ hs ih => exact .event ih hs
      exact key _ _ _ _ h7 h8

/-! ### Progress -/

/-- The lock is held exactly by the thread inside. -/
def LockOK {n : Nat} (s : CState n) : Prop :=
  (∀ t, (s.pcs t).holds = true → s.lock = some t) ∧ ∀ t, s.lock = some t → (s.pcs t).holds = true

theorem LockOK.move {n : Nat} {s s' : CState n} (h : LockOK s) {t : Fin n} {pc : PC}
    (hp : s'.pcs = Function.update s.pcs t pc) (hk : s'.lock = s.lock)
    (hh : pc.holds = (s.pcs t).holds) : LockOK s' := by
  have key : ∀ u, (s'.pcs u).holds = (s.pcs u).holds := by
    intro u
    rw [hp]
    by_cases htu : u = t
    · subst htu; rw [Function.update_self]; exact hh
    · rw [Function.update_of_ne htu]
  unfold LockOK
  simp only [key, hk]
  exact h

theorem LockOK.step {p : Params} {n : Nat} {s s' : CState n} (h : LockOK s) {ev : Option (Ev n)}
    (hs : CStep p sys s ev s') : LockOK s' := by
  cases hs with
  | @lock t b ht _ hl =>
    refine ⟨?_, ?_⟩
    · intro u hu
      by_cases htu : u = t
      · rw [htu]
      · have : (s.pcs u).holds = true := by
          simpa [CState.goto, Function.update_of_ne htu] using hu
        rw [h.1 u this] at hl; cases hl
    · intro u hu
      cases hu
      simp [CState.goto, PC.holds]
  | @unlock t b r ht =>
    have hl : s.lock = some t := h.1 t (by rw [ht]; rfl)
    refine ⟨?_, ?_⟩
    · intro u hu
      by_cases htu : u = t
      · subst htu; simp [CState.goto, PC.holds] at hu
      · have : (s.pcs u).holds = true := by
          simpa [CState.goto, Function.update_of_ne htu] using hu
        rw [h.1 u this] at hl
        exact absurd (Option.some.inj hl) htu
    · intro u hu; cases hu
  | invoke ht => exact h.move (by rfl) rfl (by rw [ht]; rfl)
  | empty ht => exact h.move (by rfl) rfl (by rw [ht]; rfl)
  | begin ht => exact h.move (by rfl) rfl (by rw [ht]; rfl)
  | refuse ht => exact h.move (by rfl) rfl (by rw [ht]; rfl)
  | loadData ht => exact h.move (by rfl) rfl (by rw [ht]; rfl)
  | growData ht => exact h.move (by rfl) rfl (by rw [ht]; rfl)
  | failData ht => exact h.move (by rfl) rfl (by rw [ht]; rfl)
  | storeData ht => exact h.move (by rfl) rfl (by rw [ht]; rfl)
  | number ht => exact h.move (by rfl) rfl (by rw [ht]; rfl)
  | loadIdx ht => exact h.move (by rfl) rfl (by rw [ht]; rfl)
  | growIdx ht => exact h.move (by rfl) rfl (by rw [ht]; rfl)
  | failIdx ht => exact h.move (by rfl) rfl (by rw [ht]; rfl)
  | storeIdx ht => exact h.move (by rfl) rfl (by rw [ht]; rfl)
  | findFails ht => exact h.move (by rfl) rfl (by rw [ht]; rfl)
  | findNone ht => exact h.move (by rfl) rfl (by rw [ht]; rfl)
  | find ht => exact h.move (by rfl) rfl (by rw [ht]; rfl)
  | readData ht => exact h.move (by rfl) rfl (by rw [ht]; rfl)
  | count ht => exact h.move (by rfl) rfl (by rw [ht]; rfl)
  | answer ht => exact h.move (by rfl) rfl (by rw [ht]; rfl)

theorem lock_exec {p : Params} {n : Nat} {db : DB} {tr : List (Ev n)} {s : CState n}
    (hx : Exec (CStep p sys) (cinit n db) tr s) : LockOK s := by
  induction hx with
  | nil => exact ⟨fun t h => (by cases h), fun t h => (by cases h)⟩
  | silent _ hs ih => exact ih.step hs
  | event _ hs ih => exact ih.step hs

theorem can_step {p : Params} {n : Nat} {s : CState n} (u : Fin n) (hu : s.pcs u ≠ .idle)
    (hf : ∀ b, s.pcs u = .start (.append b) → b ≠ [] → s.lock = none) :
    ∃ ev s', CStep p sys s ev s' ∧ ∀ t c, ev ≠ some (.inv t c) := by
  cases hpc : s.pcs u with
  | idle => exact absurd hpc hu
  | start c =>
    cases c with
    | append b =>
      by_cases hb : b = []
      · subst hb; exact ⟨_, _, .empty hpc, by simp⟩
      · exact ⟨_, _, .lock hpc hb (hf b hpc hb), by simp⟩
    | get i =>
      cases he : getEntry p s.db.idx i with
      | error e => exact ⟨_, _, .findFails hpc he, by simp⟩
      | ok o =>
        cases o with
        | none => exact ⟨_, _, .findNone hpc he, by simp⟩
        | some x => exact ⟨_, _, .find (o := x.1) (l := x.2) hpc he, by simp⟩
    | len => exact ⟨_, _, .count hpc, by simp⟩
  | locked b => exact ⟨_, _, .begin hpc, by simp⟩
  | began b d0 =>
    cases he : b.any List.isEmpty with
    | true => exact ⟨_, _, .refuse hpc he, by simp⟩
    | false => exact ⟨_, _, .loadData hpc he, by simp⟩
  | loaded b d0 sz =>
    cases he : s.db.data.g.grow p Faults.none (b.map List.length).sum (writeRecords b) with
    | mk r g =>
      cases r with
      | error e => exact ⟨_, _, .failData hpc (.inl rfl) he, by simp⟩
      | ok _ => exact ⟨_, _, .growData hpc (.inl rfl) he, by simp⟩
  | grown b d0 sz => exact ⟨_, _, .storeData hpc, by simp⟩
  | stored b d0 => exact ⟨_, _, .number hpc, by simp⟩
  | numbered b d0 k => exact ⟨_, _, .loadIdx hpc, by simp⟩
  | idxLoaded b d0 k sz =>
    cases he : s.db.idx.g.grow p Faults.none (16 * b.length) (writeEntries (entriesFrom d0 b)) with
    | mk r g =>
      cases r with
      | error e => exact ⟨_, _, .failIdx hpc (.inl rfl) he, by simp⟩
      | ok _ => exact ⟨_, _, .growIdx hpc (.inl rfl) he, by simp⟩
  | idxGrown b k sz => exact ⟨_, _, .storeIdx hpc, by simp⟩
  | unlocking b r => exact ⟨_, _, .unlock hpc, by simp⟩
  | found i o l => exact ⟨_, _, .readData hpc, by simp⟩
  | finished c r => exact ⟨_, _, .answer hpc, by simp⟩

end Verif.Fraos
