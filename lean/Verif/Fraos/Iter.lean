import Verif.Fraos.SpecLemmas

/-! # Iterators and appends -/

namespace Verif.Fraos

/-- Calls when iterators are around: `start n` is `iter_from_seqno(n)` and gives the next free iterator
number, `next k` is `next()` on iterator `k`. -/
inductive IterOp where
  | append (batch : List (List UInt8))
  | start (n : Nat)
  | next (k : Nat)

/-- Number of bytes a call brings. -/
def IterOp.bytes : IterOp → Nat
  | .append batch => (batch.map List.length).sum
  | _ => 0

/-- Iterators start below `2^60`. -/
def IterOp.small : IterOp → Prop
  | .start n => n < 2 ^ 60
  | _ => True

/-- Specification: every iterator is a position in the list of records. Only `next` answers. -/
def iterSpec (log : List (List UInt8)) (its : List Nat) : IterOp →
    Option (Except Err (Option (List UInt8))) × List (List UInt8) × List Nat
  | .append batch => if [] ∈ batch then (none, log, its) else (none, log ++ batch, its)
  | .start n => (none, log, its ++ [n])
  | .next k =>
    match its[k]? with
    | none => (none, log, its)
    | some n => (some (.ok log[n]?), log, its.set k (if n < log.length then n + 1 else n))

/-- The model: the iterator is its sequence number and shares the database. -/
def iterStep (p : Params) (db : DB) (its : List Nat) : IterOp →
    Option (Except Err (Option (List UInt8))) × DB × List Nat
  | .append batch => (none, (db.append p Faults.none Faults.none batch).2, its)
  | .start n => (none, db, its ++ [n])
  | .next k =>
    match its[k]? with
    | none => (none, db, its)
    | some n => (some (db.next p n).1, db, its.set k (db.next p n).2)

/-- Answers of the specification. -/
def iterSpecRun : List (List UInt8) → List Nat → List IterOp →
    List (Option (Except Err (Option (List UInt8))))
  | _, _, [] => []
  | log, its, op :: ops =>
    (iterSpec log its op).1 :: iterSpecRun (iterSpec log its op).2.1 (iterSpec log its op).2.2 ops

/-- Answers of the model. -/
def iterRun (p : Params) : DB → List Nat → List IterOp →
    List (Option (Except Err (Option (List UInt8))))
  | _, _, [] => []
  | db, its, op :: ops =>
    (iterStep p db its op).1 :: iterRun p (iterStep p db its op).2.1 (iterStep p db its op).2.2 ops

theorem mem_set_lt {its : List Nat} {k n : Nat} {B : Nat} (h : ∀ x ∈ its, x ≤ B) (hn : n ≤ B) :
    ∀ x ∈ its.set k n, x ≤ B := by
  intro x hx
  rcases List.mem_or_eq_of_mem_set hx with h1 | h1
  · exact h x h1
  · omega

theorem iterRun_good {p : Params} (hp : 16 ∣ p.minMmap) {onDisk : Bool} (ops : List IterOp) {db : DB}
    {log : List (List UInt8)} {used : Nat} {its : List Nat} (h : Good p onDisk db log used)
    (hits : ∀ n ∈ its, n < 2 ^ 60) (hs : ∀ op ∈ ops, op.small)
    (hfit : used + (ops.map IterOp.bytes).sum < 2 ^ 60) :
    iterRun p db its ops = iterSpecRun log its ops := by
  induction ops generalizing db log used its with
  | nil => rfl
  | cons op ops ih =>
    simp only [List.map_cons, List.sum_cons] at hfit
    have hs' : ∀ o ∈ ops, o.small := fun o ho => hs o (by simp [ho])
    simp only [iterRun, iterSpecRun]
    cases op with
    | append batch =>
      simp only [iterStep, iterSpec, IterOp.bytes] at hfit ⊢
      by_cases he : [] ∈ batch
      · rw [if_pos he, append_rejects db _ _ he]
        simp only
        rw [ih h hits hs' (by omega)]
      · rw [if_neg he]
        by_cases hb : batch = []
        · subst hb
          simp only [append_empty, List.append_nil]
          rw [ih h hits hs' (by simpa using hfit)]
        · obtain ⟨db1, e, hg⟩ := good_append hp h hb (fun r hr hc => he (hc ▸ hr)) (by omega)
          simp only [e]
          rw [ih hg hits hs' (by omega)]
    | start n =>
      simp only [iterStep, iterSpec, IterOp.bytes] at hfit ⊢
      have hn : n < 2 ^ 60 := hs (.start n) (by simp)
      rw [ih h (by
        intro x hx
        rcases List.mem_append.mp hx with hx | hx
        · exact hits x hx
        · simp only [List.mem_singleton] at hx; omega) hs' (by omega)]
    | next k =>
      simp only [iterStep, iterSpec, IterOp.bytes] at hfit ⊢
      cases hk : its[k]? with
      | none =>
        simp only
        rw [ih h hits hs' (by omega)]
      | some n =>
        obtain ⟨es, C, hinv, hC⟩ := h.ex
        have hn : n < 2 ^ 60 := hits n (List.mem_of_getElem? hk)
        have hlt := hinv.log_lt
        simp only
        rw [hinv.next_ok hn]
        simp only
        rw [ih h (by
          intro x hx
          rcases List.mem_or_eq_of_mem_set hx with h1 | h1
          · exact hits x h1
          · split at h1 <;> omega) hs' (by omega)]

/-- `k` calls of `next()` in a row. -/
def nexts (p : Params) (db : DB) : Nat → Nat → List (Except Err (Option (List UInt8)))
  | 0, _ => []
  | k + 1, n => (db.next p n).1 :: nexts p db k (db.next p n).2

end Verif.Fraos
