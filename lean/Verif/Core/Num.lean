import Mathlib.Data.Nat.Digits.Defs

/-!
# 64-bit number types of `core`

Models `BlockNumber`, `SlotNumber`, `OutputIndex` and `Timestamp`
(`/repo/core/src/{block_number,slot_number,output_index,timestamp}.rs`), which
are all newtypes over `u64`, and the number visitor
(`/repo/core/src/number_visitor.rs`). A number is a `Nat` with a proof that it is
below `2^64`. One definition models the three identical implementations; the
citations give the lines in each file.
-/

namespace Verif.Core

/-- `u64::MAX + 1`. -/
def u64Bound : Nat := 2 ^ 64

/-- A `u64`. -/
structure U64 where
  val : Nat
  lt : val < u64Bound
deriving DecidableEq

namespace U64

/-- `MAX`, block_number.rs:15, slot_number.rs:14, output_index.rs:15, timestamp.rs:15. -/
def MAX : U64 := ⟨2 ^ 64 - 1, by decide⟩
/-- `MIN`, block_number.rs:18, slot_number.rs:17, output_index.rs:18, timestamp.rs:18. -/
def MIN : U64 := ⟨0, by decide⟩

/-- `u64::checked_add` as used by `checked_add`, block_number.rs:56-58,
slot_number.rs:49-51, output_index.rs:50-52: `None` on overflow. -/
def checkedAdd (a b : U64) : Option U64 :=
  if h : a.val + b.val < u64Bound then some ⟨a.val + b.val, h⟩ else none

/-- The literal `1`. -/
def one : U64 := ⟨1, by decide⟩

/-- `checked_next`, block_number.rs:38-40, slot_number.rs:31-33, output_index.rs:32-34. -/
def checkedNext (a : U64) : Option U64 := a.checkedAdd one

/-- `saturating_add`, block_number.rs:65-67, slot_number.rs:58-60, output_index.rs:59-61;
`u64::saturating_add` is `checked_add` with `MAX` on overflow. -/
def saturatingAdd (a b : U64) : U64 :=
  match a.checkedAdd b with
  | some c => c
  | none => MAX

/-- `saturating_next`, block_number.rs:47-49, slot_number.rs:40-42, output_index.rs:41-43. -/
def saturatingNext (a : U64) : U64 := a.saturatingAdd one

/-- `saturating_sub`, block_number.rs:74-76 (only block numbers have it). -/
def saturatingSub (a b : U64) : U64 :=
  if _h : b.val ≤ a.val then ⟨a.val - b.val, lt_of_le_of_lt (Nat.sub_le _ _) a.lt⟩ else MIN

/-- The derived `Ord` (block_number.rs:9, slot_number.rs:8, output_index.rs:7-9,
timestamp.rs:10): comparison of the wrapped `u64`. -/
def cmp (a b : U64) : Ordering := compare a.val b.val

end U64

/-! ## Text -/

/-- A decimal digit as a character. -/
def digitChar (d : Nat) : Char := Char.ofNat (48 + d)

/-- `char::to_digit(10)`. -/
def toDigit (c : Char) : Option Nat :=
  if 48 ≤ c.toNat ∧ c.toNat ≤ 57 then some (c.toNat - 48) else none

/-- Decimal text of a natural number: what the `Display` of `u64` prints. -/
def showNat (n : Nat) : List Char :=
  if n = 0 then ['0'] else (Nat.digits 10 n).reverse.map digitChar

/-- `Display`, block_number.rs:79-83, slot_number.rs:63-67, output_index.rs:64-68,
timestamp.rs:47-51. -/
def U64.display (a : U64) : List Char := showNat a.val

/-- Errors of `u64::from_str` (`std::num::IntErrorKind`). -/
inductive ParseErr where
  | empty
  | invalidDigit
  | posOverflow
deriving DecidableEq, Repr

/-- The digit loop of `u64::from_str_radix`: checked multiplication by ten, digit
conversion, checked addition, in the order of the standard library. -/
def parseLoop (acc : Nat) : List Char → Except ParseErr Nat
  | [] => .ok acc
  | c :: cs =>
    match toDigit c with
    | none => .error .invalidDigit
    | some d =>
      if acc * 10 < u64Bound then
        if acc * 10 + d < u64Bound then parseLoop (acc * 10 + d) cs
        else .error .posOverflow
      else .error .posOverflow

/-- `u64::from_str` used by `FromStr`, block_number.rs:121-126, slot_number.rs:105-110,
output_index.rs:106-111, timestamp.rs:53-58: empty input and a lone sign are
errors, one leading plus is skipped, a minus is not a digit. -/
def parseU64 (s : List Char) : Except ParseErr Nat :=
  match s with
  | [] => .error .empty
  | ['+'] => .error .invalidDigit
  | ['-'] => .error .invalidDigit
  | '+' :: rest => parseLoop 0 rest
  | s => parseLoop 0 s

/-! ## Readers -/

/-- The JSON values a deserialiser can present to a visitor. `num` is a non-negative
integer literal; literals of `2^64` or more, negative ones, fractions and
everything else are `other` (serde_json presents them as `i64`/`f64`/map/...). -/
inductive Json where
  | num (n : U64)
  | str (s : List Char)
  | other

/-- Errors of the readers. -/
inductive ReadErr where
  | parse (e : ParseErr)
  | invalidType
deriving DecidableEq, Repr

/-- `NumberVisitor`, number_visitor.rs:37-50, as used by block_number.rs:143-150,
slot_number.rs:127-134, timestamp.rs:75-82. `T::try_from(u64)` never fails for
these types. Other visits keep serde's default, an invalid type error. -/
def readNumber : Json → Except ReadErr Nat
  | .num n => .ok n.val
  | .str s =>
    match parseU64 s with
    | .ok n => .ok n
    | .error e => .error (.parse e)
  | .other => .error .invalidType

/-- The derived transparent `Deserialize` of `OutputIndex`, output_index.rs:7-11: the
reader of `u64` itself, which accepts integers only. -/
def readOutputIndex : Json → Except ReadErr Nat
  | .num n => .ok n.val
  | .str _ => .error .invalidType
  | .other => .error .invalidType

/-- The derived transparent `Serialize` (block_number.rs:9-10 and alike): an integer. -/
def writeNumber (a : U64) : Json := .num a

/-! ## Lemmas -/

theorem toDigit_digitChar {d : Nat} (h : d < 10) : toDigit (digitChar d) = some d := by
  revert d; decide

theorem toDigit_lt {c : Char} {d : Nat} (h : toDigit c = some d) : d < 10 := by
  unfold toDigit at h
  split at h
  · simp at h; omega
  · simp at h

/-- Value of a list of digit characters, most significant first (the specification of
decimal text). -/
def decValue (ds : List Nat) : Nat := ds.foldl (fun a d => a * 10 + d) 0

theorem foldl_dec (ds : List Nat) (a : Nat) :
    ds.foldl (fun a d => a * 10 + d) a = a * 10 ^ ds.length + Nat.ofDigits 10 ds.reverse := by
  induction ds generalizing a with
  | nil => simp
  | cons d ds ih =>
    simp only [List.foldl_cons, ih, List.length_cons, List.reverse_cons, Nat.ofDigits_append,
      List.length_reverse, Nat.ofDigits_singleton]
    ring

theorem decValue_eq (ds : List Nat) : decValue ds = Nat.ofDigits 10 ds.reverse := by
  simp [decValue, foldl_dec]

theorem parseLoop_ok_iff (cs : List Char) (acc n : Nat) (hacc : acc < u64Bound) :
    parseLoop acc cs = .ok n ↔
      ∃ ds, cs.mapM toDigit = some ds ∧ n = ds.foldl (fun a d => a * 10 + d) acc ∧ n < u64Bound := by
  induction cs generalizing acc with
  | nil => simp [parseLoop]; constructor
           · rintro rfl; exact ⟨rfl, hacc⟩
           · rintro ⟨h, _⟩; exact h.symm
  | cons c cs ih =>
    simp only [parseLoop, List.mapM_cons]
    cases hd : toDigit c with
    | none => simp
    | some d =>
      simp only [Option.bind_eq_bind, Option.bind_some]
      have key : (∃ ds, ((cs.mapM toDigit).bind fun bs => some (d :: bs)) = some ds ∧
          n = ds.foldl (fun a d => a * 10 + d) acc ∧ n < u64Bound) ↔
          ∃ ds, cs.mapM toDigit = some ds ∧
            n = ds.foldl (fun a d => a * 10 + d) (acc * 10 + d) ∧ n < u64Bound := by
        constructor
        · rintro ⟨ds, h, hn, hb⟩
          cases hm : cs.mapM toDigit with
          | none => simp [hm] at h
          | some bs =>
            simp [hm] at h; subst h
            exact ⟨bs, rfl, hn, hb⟩
        · rintro ⟨ds, h, hn, hb⟩
          exact ⟨d :: ds, by simp [h], hn, hb⟩
      have hge : ∀ ds : List Nat, acc * 10 + d ≤ ds.foldl (fun a d => a * 10 + d) (acc * 10 + d) := by
        intro ds
        rw [foldl_dec]
        exact le_trans (Nat.le_mul_of_pos_right _ (Nat.pow_pos (by norm_num))) (Nat.le_add_right _ _)
      refine Iff.trans ?_ key.symm
      split
      · split
        · rename_i h1 h2
          exact ih _ h2
        · rename_i h1 h2
          constructor
          · simp
          · rintro ⟨ds, _, hn, hb⟩
            have := hge ds
            omega
      · rename_i h1
        constructor
        · simp
        · rintro ⟨ds, _, hn, hb⟩
          have := hge ds
          omega

theorem mapM_map_digitChar (ds : List Nat) (h : ∀ d ∈ ds, d < 10) :
    (ds.map digitChar).mapM toDigit = some ds := by
  induction ds with
  | nil => rfl
  | cons d ds ih =>
    rw [List.map_cons, List.mapM_cons, toDigit_digitChar (h d (by simp)),
      ih (fun x hx => h x (by simp [hx]))]
    rfl

theorem showNat_mapM (n : Nat) :
    ∃ ds, (showNat n).mapM toDigit = some ds ∧ decValue ds = n ∧ ds ≠ [] := by
  unfold showNat
  split
  · subst_vars; exact ⟨[0], rfl, rfl, by simp⟩
  · rename_i h
    refine ⟨(Nat.digits 10 n).reverse, mapM_map_digitChar _ ?_, ?_, ?_⟩
    · intro d hd
      exact Nat.digits_lt_base (by norm_num) (List.mem_reverse.mp hd)
    · rw [decValue_eq, List.reverse_reverse, Nat.ofDigits_digits]
    · simpa [Nat.digits_eq_nil_iff_eq_zero] using h

theorem showNat_head_ne (n : Nat) (c : Char) (h : toDigit c = none) : (showNat n).head? ≠ some c := by
  obtain ⟨ds, hds, _⟩ := showNat_mapM n
  intro hc
  cases hs : showNat n with
  | nil => simp [hs] at hc
  | cons x xs =>
    simp [hs] at hc; subst hc
    simp [hs, List.mapM_cons, h] at hds

end Verif.Core
