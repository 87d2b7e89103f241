import Verif.Json.Text
import Mathlib.Tactic.Linarith
import Mathlib.Data.Nat.Digits.Lemmas

/-!
# What is written as JSON reads back
-/

namespace Verif.Json

open Verif.Core

/-! ## Well-formed documents -/

/-- The text of a floating point number: an integer part without superfluous zeros, and a fraction or
an exponent. -/
structure FloatLit (lit : Str) : Prop where
  parts : ∃ (neg : Bool) (ds fs es : Str),
    lit = (if neg then ['-'] else []) ++ ds ++ fs ++ es ∧
    ds ≠ [] ∧ (∀ c ∈ ds, isDigit c) ∧ ¬ (ds.head? = some '0' ∧ 1 < ds.length) ∧
    (fs = [] ∨ ∃ f, fs = '.' :: f ∧ f ≠ [] ∧ ∀ c ∈ f, isDigit c) ∧
    (es = [] ∨ ∃ (e : Char) (s x : Str), es = e :: (s ++ x) ∧ (e = 'e' ∨ e = 'E') ∧
      (s = [] ∨ s = ['+'] ∨ s = ['-']) ∧ x ≠ [] ∧ ∀ c ∈ x, isDigit c) ∧
    ¬ (fs = [] ∧ es = [])

mutual
/-- Integers fit in 64 bits, other numbers are number texts. -/
def Doc.WF : Doc → Prop
  | .null => True
  | .bool _ => True
  | .int n => -2 ^ 63 ≤ n ∧ n < 2 ^ 64
  | .float lit => FloatLit lit
  | .str _ => True
  | .arr l => WFs l
  | .obj m => WFm m
/-- All elements are. -/
def WFs : List Doc → Prop
  | [] => True
  | d :: l => d.WF ∧ WFs l
/-- All members are. -/
def WFm : List (Str × Doc) → Prop
  | [] => True
  | (_, d) :: m => d.WF ∧ WFm m
end

theorem WFs_iff (l : List Doc) : WFs l ↔ ∀ d ∈ l, d.WF := by
  induction l with
  | nil => simp [WFs]
  | cons d l ih => simp [WFs, ih]

theorem WFm_iff (m : List (Str × Doc)) : WFm m ↔ ∀ p ∈ m, p.2.WF := by
  induction m with
  | nil => simp [WFm]
  | cons p m ih => obtain ⟨k, d⟩ := p; simp [WFm, ih]

/-! ## Strings -/

theorem readChars_u {a b c d : Char} {n : Nat} (h : unhex4 a b c d = some n) (hl : isLead n = false)
    (ht : isTrail n = false) (t : Str) :
    readChars ('\\' :: 'u' :: a :: b :: c :: d :: t) = consChar (Char.ofNat n) (readChars t) := by
  rw [readChars.eq_def]
  split
  · simp_all
  · simp_all
  · simp_all
  · rename_i hx heq
    simp only [List.cons.injEq, true_and] at heq
    exact absurd heq.2.symm (hx _ _ _ _ _ heq.1.symm)
  · rename_i hx heq
    simp only [List.cons.injEq] at heq
    exact absurd heq.2.symm (hx _ _ heq.1.symm)
  · simp_all

theorem readChars_esc {c d : Char} (h : unescape c = some d) (hc : c ≠ 'u') (t : Str) :
    readChars ('\\' :: c :: t) = consChar d (readChars t) := by
  rw [readChars.eq_def]
  split
  · simp_all
  · simp_all
  · simp_all
  · simp_all
  · rename_i hx heq
    simp only [List.cons.injEq] at heq
    exact absurd heq.2.symm (hx _ _ heq.1.symm)
  · simp_all

theorem readChars_plain {c : Char} (h1 : c ≠ '"') (h2 : c ≠ '\\') (h3 : ¬ c.toNat < 32) (t : Str) :
    readChars (c :: t) = consChar c (readChars t) := by
  rw [readChars.eq_def]
  split <;> simp_all

theorem unhex_hexDigit {n : Nat} (h : n < 16) : unhex (hexDigit n) = some n := by
  revert n; decide

theorem readChars_writeChar (c : Char) (t : Str) :
    readChars (writeChar c ++ t) = consChar c (readChars t) := by
  unfold writeChar
  split
  · rename_i h; subst h; exact readChars_esc (by decide) (by decide) t
  · split
    · rename_i h; subst h; exact readChars_esc (by decide) (by decide) t
    · split
      · rename_i h; subst h; exact readChars_esc (by decide) (by decide) t
      · split
        · rename_i h; subst h; exact readChars_esc (by decide) (by decide) t
        · split
          · rename_i h; subst h; exact readChars_esc (by decide) (by decide) t
          · split
            · rename_i h; subst h; exact readChars_esc (by decide) (by decide) t
            · split
              · rename_i h; subst h; exact readChars_esc (by decide) (by decide) t
              · split
                · rename_i h1 h2 _ _ _ _ _ h
                  have e : unhex4 '0' '0' (hexDigit (c.toNat / 16)) (hexDigit (c.toNat % 16)) =
                      some c.toNat := by
                    unfold unhex4
                    rw [unhex_hexDigit (by omega), unhex_hexDigit (by omega)]
                    simp [show unhex '0' = some 0 from by decide]
                    omega
                  have := readChars_u e (by simp [isLead]; omega) (by simp [isTrail]; omega) t
                  rw [Char.ofNat_toNat] at this
                  exact this
                · rename_i h1 h2 _ _ _ _ _ h
                  exact readChars_plain h1 h2 h t

theorem readChars_writeChars (s t : Str) : readChars (writeChars s ++ t) = some (s, t) := by
  induction s with
  | nil => rfl
  | cons c s ih =>
    simp only [writeChars, List.append_assoc]
    rw [readChars_writeChar, ih]; rfl

/-! ## Numbers -/

/-- What may follow a number. -/
def Stop (rest : Str) : Prop :=
  ∀ c ∈ rest.head?, isDigit c = false ∧ c ≠ '.' ∧ c ≠ 'e' ∧ c ≠ 'E'

theorem stop_cons {c : Char} {t : Str} (h : isDigit c = false ∧ c ≠ '.' ∧ c ≠ 'e' ∧ c ≠ 'E') :
    Stop (c :: t) := by intro d hd; simp at hd; subst hd; exact h

theorem takeWhile_digits {ds rest : Str} (h : ∀ c ∈ ds, isDigit c)
    (hr : ∀ c ∈ rest.head?, isDigit c = false) :
    (ds ++ rest).takeWhile isDigit = ds ∧ (ds ++ rest).dropWhile isDigit = rest := by
  induction ds with
  | nil =>
    cases rest with
    | nil => simp
    | cons c t => have := hr c (by simp); simp [this]
  | cons c ds ih =>
    have hc := h c (by simp)
    have := ih (fun c hc => h c (by simp [hc]))
    simp [hc, this.1, this.2]

theorem readExp_stop {rest : Str} (h : Stop rest) : readExp rest = some ([], rest) := by
  cases rest with
  | nil => rfl
  | cons c t =>
    have := h c (by simp)
    simp [readExp, this.2.2.1, this.2.2.2]

theorem readFrac_stop {rest : Str} (h : Stop rest) : readFrac rest = some ([], rest) := by
  unfold readFrac
  split
  · rename_i cs
    exact absurd rfl (h '.' (by simp)).2.1
  · exact readExp_stop h

theorem readExp_exp {e : Char} {s x rest : Str} (he : e = 'e' ∨ e = 'E')
    (hs : s = [] ∨ s = ['+'] ∨ s = ['-']) (hx : x ≠ []) (hd : ∀ c ∈ x, isDigit c) (h : Stop rest) :
    readExp (e :: (s ++ x) ++ rest) = some (e :: (s ++ x), rest) := by
  have tw := takeWhile_digits (rest := rest) hd (fun c hc => (h c hc).1)
  rcases hs with rfl | rfl | rfl
  · cases x with
    | nil => exact absurd rfl hx
    | cons c x =>
      have hc := hd c (by simp)
      have h1 : c ≠ '+' := by rintro rfl; exact absurd hc (by decide)
      have h2 : c ≠ '-' := by rintro rfl; exact absurd hc (by decide)
      have t1 := tw.1
      have t2 := tw.2
      simp only [List.cons_append] at t1 t2
      simp [readExp, he, h1, h2, t1, t2]
  · simp [readExp, he, tw.1, tw.2, hx]
  · simp [readExp, he, tw.1, tw.2, hx]

theorem exp_head {es rest : Str} (h : es = [] ∨ ∃ (e : Char) (s x : Str), es = e :: (s ++ x) ∧
    (e = 'e' ∨ e = 'E') ∧ (s = [] ∨ s = ['+'] ∨ s = ['-']) ∧ x ≠ [] ∧ ∀ c ∈ x, isDigit c)
    (hs : Stop rest) : (∀ c ∈ (es ++ rest).head?, isDigit c = false ∧ c ≠ '.') ∧
      readExp (es ++ rest) = some (es, rest) := by
  rcases h with rfl | ⟨e, s, x, rfl, he, hs', hx, hd⟩
  · exact ⟨fun c hc => ⟨(hs c hc).1, (hs c hc).2.1⟩, readExp_stop hs⟩
  · refine ⟨?_, readExp_exp he hs' hx hd hs⟩
    intro c hc
    simp at hc
    rcases he with rfl | rfl <;> subst hc <;> decide

theorem readNum_float {neg : Bool} {ds fs es rest : Str} (hne : ds ≠ [])
    (hd : ∀ c ∈ ds, isDigit c) (hz : ¬ (ds.head? = some '0' ∧ 1 < ds.length))
    (hf : fs = [] ∨ ∃ f, fs = '.' :: f ∧ f ≠ [] ∧ ∀ c ∈ f, isDigit c)
    (he : es = [] ∨ ∃ (e : Char) (s x : Str), es = e :: (s ++ x) ∧ (e = 'e' ∨ e = 'E') ∧
      (s = [] ∨ s = ['+'] ∨ s = ['-']) ∧ x ≠ [] ∧ ∀ c ∈ x, isDigit c)
    (hn : ¬ (fs = [] ∧ es = [])) (hs : Stop rest) :
    readNum neg (ds ++ (fs ++ (es ++ rest))) =
      some (.float ((if neg then ['-'] else []) ++ ds ++ fs ++ es), rest) := by
  obtain ⟨h1, h2⟩ := exp_head he hs
  have hfr : (∀ c ∈ (fs ++ (es ++ rest)).head?, isDigit c = false) ∧
      readFrac (fs ++ (es ++ rest)) = some (fs ++ es, rest) := by
    rcases hf with rfl | ⟨f, rfl, hfne, hfd⟩
    · refine ⟨fun c hc => (h1 c hc).1, ?_⟩
      simp only [List.nil_append]
      unfold readFrac
      split
      · rename_i cs heq
        rw [heq] at h1
        exact absurd rfl (h1 '.' (by simp)).2
      · exact h2
    · refine ⟨by intro c hc; simp at hc; subst hc; decide, ?_⟩
      have tw := takeWhile_digits (rest := es ++ rest) hfd (fun c hc => (h1 c hc).1)
      simp [readFrac, tw.1, tw.2, hfne, h2]
  have tw := takeWhile_digits (rest := fs ++ (es ++ rest)) hd hfr.1
  have hn' : ¬ (fs ++ es = []) := by simpa using hn
  unfold readNum
  simp only [tw.1, tw.2, hfr.2]
  rw [if_neg (by rintro (h | h); exact hne h; exact hz h)]
  simp [hn']

theorem digit_toDigit {c : Char} {d : Nat} (h : toDigit c = some d) :
    isDigit c = true ∧ c.toNat - 48 = d := by
  unfold toDigit at h
  split at h
  · rename_i hc; simp at h; simp [isDigit, hc, h]
  · simp at h

theorem digits_mapM {s : Str} {ds : List Nat} (h : s.mapM toDigit = some ds) :
    (∀ c ∈ s, isDigit c) ∧ digitsVal s = decValue ds := by
  have : ∀ (s : Str) (ds : List Nat) (a : Nat), s.mapM toDigit = some ds →
      (∀ c ∈ s, isDigit c) ∧
        s.foldl (fun a c => a * 10 + (c.toNat - 48)) a = ds.foldl (fun a d => a * 10 + d) a := by
    intro s
    induction s with
    | nil => intro ds a h; simp at h; subst h; simp
    | cons c s ih =>
      intro ds a h
      rw [List.mapM_cons] at h
      cases hc : toDigit c with
      | none => simp [hc] at h
      | some d =>
        cases hm : s.mapM toDigit with
        | none => simp [hc, hm] at h
        | some ds' =>
          simp [hc, hm] at h; subst h
          obtain ⟨h1, h2⟩ := digit_toDigit hc
          have := ih ds' (a * 10 + d) hm
          refine ⟨by simpa [h1] using this.1, ?_⟩
          simp only [List.foldl_cons, h2, this.2]
  exact this s ds 0 h

theorem showNat_nozero (n : Nat) : ¬ ((showNat n).head? = some '0' ∧ 1 < (showNat n).length) := by
  unfold showNat
  split
  · simp
  · rename_i hn
    rintro ⟨h, _⟩
    rw [List.map_reverse, List.head?_reverse, List.getLast?_map] at h
    have hne : Nat.digits 10 n ≠ [] := by simpa [Nat.digits_eq_nil_iff_eq_zero] using hn
    rw [List.getLast?_eq_some_getLast hne] at h
    simp only [Option.map_some, Option.some.injEq] at h
    have h0 := Nat.getLast_digit_ne_zero 10 hn
    have hlt : (Nat.digits 10 n).getLast hne < 10 :=
      Nat.digits_lt_base (by norm_num) (List.getLast_mem hne)
    have key : ∀ d, d < 10 → digitChar d = '0' → d = 0 := by decide
    exact h0 (key _ hlt h)

theorem showNat_facts (n : Nat) :
    showNat n ≠ [] ∧ (∀ c ∈ showNat n, isDigit c) ∧ digitsVal (showNat n) = n := by
  obtain ⟨ds, h1, h2, h3⟩ := showNat_mapM n
  obtain ⟨h4, h5⟩ := digits_mapM h1
  refine ⟨?_, h4, by rw [h5, h2]⟩
  intro h
  rw [h] at h1
  simp at h1; exact h3 h1

theorem readNum_nat {n : Nat} {rest : Str} (neg : Bool) (hs : Stop rest) :
    readNum neg (showNat n ++ rest) =
      if neg = false ∧ n < 2 ^ 64 then some (.int n, rest)
      else if neg = true ∧ 0 < n ∧ n ≤ 2 ^ 63 then some (.int (-n), rest)
      else some (.float ((if neg then ['-'] else []) ++ showNat n), rest) := by
  obtain ⟨h1, h2, h3⟩ := showNat_facts n
  have tw := takeWhile_digits (rest := rest) h2 (fun c hc => (hs c hc).1)
  unfold readNum
  simp only [tw.1, tw.2, readFrac_stop hs, h3]
  rw [if_neg (by rintro (h | h); exact h1 h; exact showNat_nozero n h)]
  simp

/-! ## Values -/

theorem skip_cons {c : Char} {t : Str} (h : isWs c = false) : skip (c :: t) = c :: t := by
  simp [skip, h]

theorem readValue_digit {fuel : Nat} {c : Char} {t : Str} (h : isDigit c) :
    readValue (fuel + 1) (c :: t) = readNum false (c :: t) := by
  have hw : isWs c = false := by
    unfold isWs
    simp only [Bool.or_eq_false_iff, decide_eq_false_iff_not]
    refine ⟨⟨⟨?_, ?_⟩, ?_⟩, ?_⟩ <;> (rintro rfl; exact absurd h (by decide))
  rw [readValue.eq_def]
  simp only [skip_cons hw]
  split <;> first
    | rfl
    | (rename_i heq; injection heq with h1 _; subst h1; exact absurd h (by decide))

mutual
/-- Reading steps of a document. -/
def cost : Doc → Nat
  | .arr l => 1 + costs l
  | .obj m => 1 + costm m
  | _ => 1
/-- Reading steps of elements. -/
def costs : List Doc → Nat
  | [] => 0
  | d :: l => 1 + cost d + costs l
/-- Reading steps of members. -/
def costm : List (Str × Doc) → Nat
  | [] => 0
  | (_, d) :: m => 1 + cost d + costm m
end

theorem readValue_int {n : Int} {rest : Str} {fuel : Nat} (hn : -2 ^ 63 ≤ n ∧ n < 2 ^ 64)
    (hs : Stop rest) : readValue (fuel + 1) (writeInt n ++ rest) = some (.int n, rest) := by
  obtain ⟨h1, h2, h3⟩ := showNat_facts n.natAbs
  unfold writeInt
  split
  · rename_i h
    rw [readValue.eq_def]
    simp only [List.cons_append]
    rw [skip_cons (by decide)]
    simp only
    rw [readNum_nat true hs, if_neg (by simp), if_pos ⟨rfl, by omega, by omega⟩]
    congr 3; omega
  · rename_i h
    cases hsn : showNat n.natAbs with
    | nil => exact absurd hsn h1
    | cons c t =>
      have hc : isDigit c := h2 c (by rw [hsn]; simp)
      rw [List.cons_append, readValue_digit hc, ← List.cons_append, ← hsn, readNum_nat false hs,
        if_pos ⟨rfl, by omega⟩]
      congr 3; omega

theorem readValue_float {lit rest : Str} {fuel : Nat} (h : FloatLit lit) (hs : Stop rest) :
    readValue (fuel + 1) (lit ++ rest) = some (.float lit, rest) := by
  obtain ⟨neg, ds, fs, es, rfl, hne, hd, hz, hf, he, hn⟩ := h.parts
  have key := readNum_float (neg := neg) hne hd hz hf he hn hs
  cases neg with
  | true =>
    simp only [if_true, List.cons_append, List.nil_append, List.append_assoc] at key ⊢
    rw [readValue.eq_def]
    simp only
    rw [skip_cons (by decide)]
    exact key
  | false =>
    cases hds : ds with
    | nil => exact absurd hds hne
    | cons c t =>
      have hc : isDigit c := hd c (by rw [hds]; simp)
      rw [hds] at key
      simp only [Bool.false_eq_true, if_false, List.cons_append, List.nil_append,
        List.append_assoc] at key ⊢
      rw [readValue_digit hc]
      exact key

theorem stop_writeElems (l : List Doc) (t : Str) : Stop (writeElems l ++ t) := by
  cases l <;> (simp only [writeElems, List.cons_append]; exact stop_cons (by decide))

theorem stop_writeMembers (m : List (Str × Doc)) (t : Str) : Stop (writeMembers m ++ t) := by
  rcases m with _ | ⟨⟨k, d⟩, m⟩ <;>
    (simp only [writeMembers, List.cons_append]; exact stop_cons (by decide))

theorem write_head (d : Doc) (h : d.WF) :
    ∃ c t, write d = c :: t ∧ isWs c = false ∧ c ≠ ']' ∧ c ≠ '}' := by
  cases d with
  | null => exact ⟨_, _, rfl, by decide⟩
  | bool b => cases b <;> exact ⟨_, _, rfl, by decide⟩
  | int n =>
    simp only [write, writeInt]
    split
    · exact ⟨_, _, rfl, by decide⟩
    · obtain ⟨h1, h2, _⟩ := showNat_facts n.natAbs
      cases hsn : showNat n.natAbs with
      | nil => exact absurd hsn h1
      | cons c t =>
        have hc : isDigit c := h2 c (by rw [hsn]; simp)
        refine ⟨c, t, rfl, ?_, ?_, ?_⟩
        · unfold isWs
          simp only [Bool.or_eq_false_iff, decide_eq_false_iff_not]
          refine ⟨⟨⟨?_, ?_⟩, ?_⟩, ?_⟩ <;> (rintro rfl; exact absurd hc (by decide))
        · rintro rfl; exact absurd hc (by decide)
        · rintro rfl; exact absurd hc (by decide)
  | float lit =>
    have hf : FloatLit lit := h
    obtain ⟨neg, ds, fs, es, rfl, hne, hd, _⟩ := hf.parts
    cases neg with
    | true => exact ⟨_, _, rfl, by decide⟩
    | false =>
      cases hds : ds with
      | nil => exact absurd hds hne
      | cons c t =>
        have hc : isDigit c := hd c (by rw [hds]; simp)
        refine ⟨c, t ++ fs ++ es, by simp [write], ?_, ?_, ?_⟩
        · unfold isWs
          simp only [Bool.or_eq_false_iff, decide_eq_false_iff_not]
          refine ⟨⟨⟨?_, ?_⟩, ?_⟩, ?_⟩ <;> (rintro rfl; exact absurd hc (by decide))
        · rintro rfl; exact absurd hc (by decide)
        · rintro rfl; exact absurd hc (by decide)
  | str s => exact ⟨_, _, rfl, by decide⟩
  | arr l => cases l <;> exact ⟨_, _, rfl, by decide⟩
  | obj m => rcases m with _ | ⟨⟨k, d⟩, m⟩ <;> exact ⟨_, _, rfl, by decide⟩

mutual
theorem readValue_write : (d : Doc) → d.WF → ∀ (fuel : Nat) (rest : Str), cost d ≤ fuel →
    Stop rest → readValue fuel (write d ++ rest) = some (d, rest)
  | .null, _, fuel, rest, hf, _ => by
    obtain ⟨f, rfl⟩ : ∃ f, fuel = f + 1 := ⟨fuel - 1, by simp only [cost] at hf; omega⟩
    rw [readValue.eq_def]; rfl
  | .bool true, _, fuel, rest, hf, _ => by
    obtain ⟨f, rfl⟩ : ∃ f, fuel = f + 1 := ⟨fuel - 1, by simp only [cost] at hf; omega⟩
    rw [readValue.eq_def]; rfl
  | .bool false, _, fuel, rest, hf, _ => by
    obtain ⟨f, rfl⟩ : ∃ f, fuel = f + 1 := ⟨fuel - 1, by simp only [cost] at hf; omega⟩
    rw [readValue.eq_def]; rfl
  | .int n, h, fuel, rest, hf, hs => by
    obtain ⟨f, rfl⟩ : ∃ f, fuel = f + 1 := ⟨fuel - 1, by simp only [cost] at hf; omega⟩
    simp only [write]
    exact readValue_int h hs
  | .float lit, h, fuel, rest, hf, hs => by
    obtain ⟨f, rfl⟩ : ∃ f, fuel = f + 1 := ⟨fuel - 1, by simp only [cost] at hf; omega⟩
    simp only [write]
    exact readValue_float h hs
  | .str s, _, fuel, rest, hf, _ => by
    obtain ⟨f, rfl⟩ : ∃ f, fuel = f + 1 := ⟨fuel - 1, by simp only [cost] at hf; omega⟩
    rw [readValue.eq_def]
    simp only [write, writeStr, List.cons_append]
    rw [skip_cons (by decide)]
    simp only [readChars_writeChars, Option.map_some]
  | .arr [], _, fuel, rest, hf, _ => by
    obtain ⟨f, rfl⟩ : ∃ f, fuel = f + 1 := ⟨fuel - 1, by simp only [cost] at hf; omega⟩
    rw [readValue.eq_def]; rfl
  | .arr (d :: l), h, fuel, rest, hf, hs => by
    obtain ⟨f, rfl⟩ : ∃ f, fuel = f + 1 := ⟨fuel - 1, by simp only [cost] at hf; omega⟩
    simp only [Doc.WF, WFs] at h
    simp only [cost, costs] at hf
    have := readElems_write d l h.1 h.2 f rest (by omega)
    obtain ⟨c, t, hw, hc, h1, _⟩ := write_head d h.1
    rw [hw] at this
    rw [readValue.eq_def]
    simp only [write, hw, List.cons_append, List.append_assoc]
    rw [skip_cons (by decide)]
    simp only
    rw [skip_cons hc]
    simp only [List.cons_append] at this
    split
    · rename_i heq; injection heq with h' _; exact absurd h' h1
    · rw [this]; rfl
  | .obj [], _, fuel, rest, hf, _ => by
    obtain ⟨f, rfl⟩ : ∃ f, fuel = f + 1 := ⟨fuel - 1, by simp only [cost] at hf; omega⟩
    rw [readValue.eq_def]; rfl
  | .obj ((k, d) :: m), h, fuel, rest, hf, hs => by
    obtain ⟨f, rfl⟩ : ∃ f, fuel = f + 1 := ⟨fuel - 1, by simp only [cost] at hf; omega⟩
    simp only [Doc.WF, WFm] at h
    simp only [cost, costm] at hf
    have := readMembers_write k d m h.1 h.2 f rest (by omega)
    rw [readValue.eq_def]
    simp only [write, writeStr, List.cons_append, List.append_assoc] at this ⊢
    rw [skip_cons (by decide)]
    simp only
    rw [skip_cons (by decide)]
    split
    · rename_i heq; injection heq with h' _; exact absurd h' (by decide)
    · rw [this]; rfl
  termination_by _ _ fuel => fuel
theorem readElems_write : (d : Doc) → (l : List Doc) → d.WF → WFs l → ∀ (fuel : Nat) (rest : Str),
    1 + cost d + costs l ≤ fuel →
    readElems fuel (write d ++ (writeElems l ++ rest)) = some (d :: l, rest)
  | d, [], h, _, fuel, rest, hf => by
    obtain ⟨f, rfl⟩ : ∃ f, fuel = f + 1 := ⟨fuel - 1, by omega⟩
    rw [readElems.eq_def]
    simp only
    rw [readValue_write d h f _ (by omega) (stop_writeElems [] rest)]
    rfl
  | d, d' :: l, h, hl, fuel, rest, hf => by
    obtain ⟨f, rfl⟩ : ∃ f, fuel = f + 1 := ⟨fuel - 1, by omega⟩
    simp only [costs] at hf
    simp only [WFs] at hl
    rw [readElems.eq_def]
    simp only
    rw [readValue_write d h f _ (by omega) (stop_writeElems (d' :: l) rest)]
    simp only [writeElems, List.cons_append, List.append_assoc]
    rw [skip_cons (by decide)]
    simp only
    rw [readElems_write d' l hl.1 hl.2 f rest (by omega)]
    rfl
  termination_by _ _ _ _ fuel => fuel
theorem readMembers_write : (k : Str) → (d : Doc) → (m : List (Str × Doc)) → d.WF → WFm m →
    ∀ (fuel : Nat) (rest : Str), 1 + cost d + costm m ≤ fuel →
    readMembers fuel (writeStr k ++ ':' :: (write d ++ (writeMembers m ++ rest))) =
      some ((k, d) :: m, rest)
  | k, d, [], h, _, fuel, rest, hf => by
    obtain ⟨f, rfl⟩ : ∃ f, fuel = f + 1 := ⟨fuel - 1, by omega⟩
    rw [readMembers.eq_def]
    simp only [writeStr, List.cons_append]
    rw [skip_cons (by decide)]
    simp only
    rw [readChars_writeChars]
    simp only
    rw [skip_cons (by decide)]
    simp only
    rw [readValue_write d h f _ (by omega) (stop_writeMembers [] rest)]
    rfl
  | k, d, (k', d') :: m, h, hm, fuel, rest, hf => by
    obtain ⟨f, rfl⟩ : ∃ f, fuel = f + 1 := ⟨fuel - 1, by omega⟩
    simp only [costm] at hf
    simp only [WFm] at hm
    rw [readMembers.eq_def]
    simp only [writeStr, List.cons_append]
    rw [skip_cons (by decide)]
    simp only
    rw [readChars_writeChars]
    simp only
    rw [skip_cons (by decide)]
    simp only
    rw [readValue_write d h f _ (by omega) (stop_writeMembers ((k', d') :: m) rest)]
    have := readMembers_write k' d' m hm.1 hm.2 f rest (by omega)
    simp only [writeMembers, writeStr, List.cons_append, List.append_assoc] at this ⊢
    rw [skip_cons (by decide)]
    simp only
    rw [this]
    rfl
  termination_by _ _ _ _ _ fuel => fuel
end

mutual
theorem cost_le : (d : Doc) → d.WF → cost d + 1 ≤ 2 * (write d).length
  | .null, _ => by simp [cost, write]
  | .bool true, _ => by simp [cost, write]
  | .bool false, _ => by simp [cost, write]
  | .int n, h => by
    obtain ⟨c, t, hw, _⟩ := write_head (.int n) h
    rw [hw]; simp [cost]
  | .float lit, h => by
    obtain ⟨c, t, hw, _⟩ := write_head (.float lit) h
    rw [hw]; simp [cost]
  | .str s, h => by
    obtain ⟨c, t, hw, _⟩ := write_head (.str s) h
    rw [hw]; simp [cost]
  | .arr [], _ => by simp [cost, costs, write]
  | .arr (d :: l), h => by
    simp only [Doc.WF, WFs] at h
    have h1 := cost_le d h.1
    have h2 := costs_le l h.2
    simp only [cost, costs, write, List.length_cons, List.length_append]
    omega
  | .obj [], _ => by simp [cost, costm, write]
  | .obj ((k, d) :: m), h => by
    simp only [Doc.WF, WFm] at h
    have h1 := cost_le d h.1
    have h2 := costm_le m h.2
    simp only [cost, costm, write, List.length_cons, List.length_append]
    omega
theorem costs_le : (l : List Doc) → WFs l → costs l ≤ 2 * (writeElems l).length
  | [], _ => by simp [costs]
  | d :: l, h => by
    simp only [WFs] at h
    have h1 := cost_le d h.1
    have h2 := costs_le l h.2
    simp only [costs, writeElems, List.length_cons, List.length_append]
    omega
theorem costm_le : (m : List (Str × Doc)) → WFm m → costm m ≤ 2 * (writeMembers m).length
  | [], _ => by simp [costm]
  | (k, d) :: m, h => by
    simp only [WFm] at h
    have h1 := cost_le d h.1
    have h2 := costm_le m h.2
    simp only [costm, writeMembers, List.length_cons, List.length_append]
    omega
end

/-- What is written reads back. -/
theorem readDoc_write (d : Doc) (h : d.WF) : readDoc (write d) = some d := by
  have hc := cost_le d h
  have := readValue_write d h (2 * (write d).length + 2) [] (by omega) (by intro c hc; simp at hc)
  rw [List.append_nil] at this
  simp [readDoc, this, skip]

/-- Only white space may follow a document. -/
theorem readDoc_rest (d : Doc) (h : d.WF) {rest : Str} (hs : Stop rest) :
    readDoc (write d ++ rest) = if ∀ c ∈ rest, isWs c = true then some d else none := by
  have hc := cost_le d h
  have := readValue_write d h (2 * (write d ++ rest).length + 2) rest (by rw [List.length_append]; omega) hs
  have hd : ∀ l : Str, l.dropWhile isWs = [] ↔ ∀ c ∈ l, isWs c = true := by
    intro l
    induction l with
    | nil => simp
    | cons c l ih => by_cases hc : isWs c = true <;> simp [hc, ih]
  simp only [readDoc, this, skip, hd]

end Verif.Json
