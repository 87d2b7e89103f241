import Verif.Fraos.SubView
import Verif.Fraos.GrowableLemmas

/-!
# Sub-views of a mapped view (C97)
-/

namespace Verif.Props

open Verif.Fraos

/-- Specification: whether a range that starts so has started at index `i`. -/
def fromHere : RangeEnd → Nat → Bool
  | .included n, i => decide (n ≤ i)
  | .excluded n, i => decide (n < i)
  | .unbounded, _ => true

/-- Specification: whether a range that ends so reaches index `i`. -/
def upToHere : RangeEnd → Nat → Bool
  | .included n, i => decide (i ≤ n)
  | .excluded n, i => decide (i < n)
  | .unbounded, _ => true

/-- Specification: the elements of a list whose index is in a range. -/
def inRange {α : Type} (lo hi : RangeEnd) (l : List α) : List α :=
  (l.zipIdx.filter fun x => fromHere lo x.2 && upToHere hi x.2).map (·.1)

/-- The values of an end are of type `usize`. -/
def RangeEndOK : RangeEnd → Prop
  | .included n => n < 2 ^ 64
  | .excluded n => n < 2 ^ 64
  | .unbounded => True

theorem filter_zipIdx_range {α : Type} (l : List α) (s e k : Nat) :
    ((l.zipIdx k).filter fun x => decide (s ≤ x.2) && decide (x.2 < e)).map (·.1) =
      (l.take (e - k)).drop (s - k) := by
  induction l generalizing k with
  | nil => simp
  | cons a l ih =>
    rw [List.zipIdx_cons, List.filter_cons]
    have ih := ih (k + 1)
    by_cases he : k < e
    · have e1 : e - k = (e - (k + 1)) + 1 := by omega
      rw [e1, List.take_succ_cons]
      by_cases hs : s ≤ k
      · have e2 : s - k = 0 := by omega
        have e3 : s - (k + 1) = 0 := by omega
        rw [if_pos (by simp [hs, he]), e2, List.drop_zero, List.map_cons, ih, e3, List.drop_zero]
      · have e2 : s - k = (s - (k + 1)) + 1 := by omega
        rw [if_neg (by simp [hs]), e2, List.drop_succ_cons, ih]
    · have e1 : e - k = 0 := by omega
      have e4 : e - (k + 1) = 0 := by omega
      rw [if_neg (by simp [he]), ih, e1, e4]
      simp

theorem inRange_eq {α : Type} {lo hi : RangeEnd} {l : List α} {s e : Nat}
    (hs : ∀ i, i < l.length → fromHere lo i = decide (s ≤ i))
    (he : ∀ i, i < l.length → upToHere hi i = decide (i < e)) : inRange lo hi l = (l.take e).drop s := by
  have h := filter_zipIdx_range l s e 0
  rw [Nat.sub_zero, Nat.sub_zero] at h
  rw [← h, inRange]
  congr 1
  apply List.filter_congr
  intro x hx
  have hi := List.mem_zipIdx hx
  rw [hs _ (by omega), he _ (by omega)]

theorem load_sub {g : GM} {m : Mem} {off n : Nat} {bs : List UInt8} (h : g.load m off n = .ok bs)
    {a k : Nat} (hk : a + k ≤ n) : g.load m (off + a) k = .ok ((bs.take (a + k)).drop a) := by
  have hread : ∀ (b : Blob) (o : Nat), b.read (o + a) k = (((b.read o n).take (a + k)).drop a) := by
    intro b o
    apply List.ext_getElem
    · simp [Blob.read]; omega
    · intro i h1 h2
      simp [Blob.read, Nat.add_assoc]
  cases m with
  | anon b =>
    simp only [GM.load] at h ⊢
    rw [← Except.ok.inj h, hread]
  | file o =>
    simp only [GM.load] at h ⊢
    split at h
    · next hc =>
      rw [← Except.ok.inj h, ← Nat.add_assoc, hread, if_pos]
      rcases hc with hc | hc
      · left; omega
      · right; omega
    · cases h

theorem load_length {g : GM} {m : Mem} {off n : Nat} {bs : List UInt8} (h : g.load m off n = .ok bs) :
    bs.length = n := by
  cases m with
  | anon b =>
    simp only [GM.load] at h
    rw [← Except.ok.inj h]; simp [Blob.read]
  | file o =>
    simp only [GM.load] at h
    split at h
    · rw [← Except.ok.inj h]; simp [Blob.read]
    · cases h

theorem load_zero (g : GM) (m : Mem) (off : Nat) : g.load m off 0 = .ok [] := by
  cases m <;> simp [GM.load, Blob.read]

/-- **C97.** A sub-view has exactly the bytes of the view whose index is in the range, in order, whatever the ends of the
range are: included, excluded, open, beyond the view or the wrong way round. The one exception is a range that starts
after the largest index there is (`C97_wrap_false`). -/
theorem C97_exact (p : Params) {g : GM} {v : View} {bs : List UInt8} (hv : g.viewBytes v = .ok bs)
    (lo hi : RangeEnd) (hlo : RangeEndOK lo) (hmax : lo ≠ .excluded (2 ^ 64 - 1)) :
    ∃ w, v.sliceRange p lo hi = .ok w ∧ w.len = (inRange lo hi bs).length ∧
      g.viewBytes w = .ok (inRange lo hi bs) := by
  have hlen : bs.length = v.len := load_length hv
  have empty : inRange lo hi bs = [] → ∃ w, Except.ok (ε := Err) { v with len := 0 } = .ok w ∧
      w.len = (inRange lo hi bs).length ∧ g.viewBytes w = .ok (inRange lo hi bs) := by
    intro h
    refine ⟨_, rfl, ?_, ?_⟩
    · rw [h]; rfl
    · rw [h]; exact load_zero _ _ _
  unfold View.sliceRange
  by_cases h0 : v.len = 0
  · rw [if_pos h0]
    apply empty
    have : bs = [] := List.eq_nil_of_length_eq_zero (by omega)
    rw [this]; rfl
  rw [if_neg h0]
  obtain ⟨a, ha, hfrom⟩ : ∃ a, lo.first p = .ok a ∧ ∀ i, fromHere lo i = decide (a ≤ i) := by
    cases lo with
    | included n => exact ⟨n, rfl, fun i => rfl⟩
    | excluded n =>
      refine ⟨n + 1, ?_, fun i => rfl⟩
      have hne : n ≠ 2 ^ 64 - 1 := fun h => hmax (by rw [h])
      have hlt : n < 2 ^ 64 := hlo
      exact usize_ok (by omega)
    | unbounded => exact ⟨0, rfl, fun i => by simp [fromHere]⟩
  rw [ha]
  dsimp only
  by_cases hge : a ≥ v.len
  · rw [if_pos hge]
    apply empty
    rw [inRange, List.map_eq_nil_iff, List.filter_eq_nil_iff]
    intro x hx
    have := List.mem_zipIdx hx
    have : ¬ a ≤ x.2 := by omega
    simp [hfrom, this]
  rw [if_neg hge]
  cases hl : hi.last v.len with
  | none =>
    dsimp only
    apply empty
    have : hi = .excluded 0 := by
      cases hi with
      | excluded n =>
        simp only [RangeEnd.last] at hl
        split at hl
        · next h => rw [h]
        · cases hl
      | included n => cases hl
      | unbounded => cases hl
    rw [inRange, List.map_eq_nil_iff, List.filter_eq_nil_iff]
    intro x _
    simp [this, upToHere]
  | some z =>
    dsimp only
    have hto : ∀ i, i < bs.length → upToHere hi i = decide (i < min z (v.len - 1) + 1) := by
      intro i hi'
      cases hi with
      | excluded n =>
        simp only [RangeEnd.last] at hl
        split at hl
        · cases hl
        · cases hl
          simp only [upToHere, decide_eq_decide]
          omega
      | included n => cases hl; simp only [upToHere, decide_eq_decide]; omega
      | unbounded =>
        cases hl
        have : i < min (v.len - 1) (v.len - 1) + 1 := by omega
        simp only [upToHere, this, decide_true]
    have hr : inRange lo hi bs = (bs.take (min z (v.len - 1) + 1)).drop a := inRange_eq (fun i _ => hfrom i) hto
    refine ⟨_, rfl, ?_, ?_⟩
    · rw [hr, List.length_drop, List.length_take]
      dsimp only
      split <;> omega
    · rw [hr]
      dsimp only [GM.viewBytes]
      split
      · next h =>
        rw [load_sub hv (by omega)]
        congr 3
        omega
      · next h =>
        rw [load_zero]
        congr 1
        rw [eq_comm, List.drop_eq_nil_iff, List.length_take]
        omega

/-- **C97.** In every build and for every range, what `slice` returns lies within the view it was taken from. -/
theorem C97_inside {p : Params} {v w : View} {lo hi : RangeEnd} (h : v.sliceRange p lo hi = .ok w) :
    w.mem = v.mem ∧ v.start ≤ w.start ∧ w.start + w.len ≤ v.start + v.len := by
  unfold View.sliceRange at h
  split at h
  · cases h; simp
  · split at h
    · cases h
    · split at h
      · cases h; simp
      · split at h
        · cases h; simp
        · cases h
          dsimp only
          refine ⟨rfl, by omega, ?_⟩
          split <;> omega

/-- **C97.** Cutting a view at any index gives two views that together have its bytes. -/
theorem C97_cut (p : Params) {g : GM} {v : View} {bs : List UInt8} (hv : g.viewBytes v = .ok bs) {k : Nat}
    (hk : k < 2 ^ 64) :
    ∃ x y l r, v.sliceRange p .unbounded (.excluded k) = .ok x ∧ v.sliceRange p (.included k) .unbounded = .ok y ∧
      g.viewBytes x = .ok l ∧ g.viewBytes y = .ok r ∧ l ++ r = bs := by
  obtain ⟨x, hx, -, hl⟩ := C97_exact p hv .unbounded (.excluded k) trivial (by simp)
  obtain ⟨y, hy, -, hr⟩ := C97_exact p hv (.included k) .unbounded hk (by simp)
  refine ⟨x, y, _, _, hx, hy, hl, hr, ?_⟩
  rw [inRange_eq (s := 0) (e := k) (by intro i _; simp [fromHere]) (fun i _ => rfl),
    inRange_eq (s := k) (e := bs.length) (fun i _ => rfl) (by intro i h; simp [upToHere, h]),
    List.drop_zero, List.take_length, List.take_append_drop]

/-- **C97.** A sub-view of a sub-view: `c..d` of `a..b` has the bytes of `a + c..min(b, a + d)`. -/
theorem C97_nested (p : Params) {g : GM} {v : View} {bs : List UInt8} (hv : g.viewBytes v = .ok bs) {a b c d : Nat}
    (ha : a + c < 2 ^ 64) :
    ∃ x y z l, v.sliceRange p (.included a) (.excluded b) = .ok x ∧
      x.sliceRange p (.included c) (.excluded d) = .ok y ∧
      v.sliceRange p (.included (a + c)) (.excluded (min b (a + d))) = .ok z ∧
      g.viewBytes y = .ok l ∧ g.viewBytes z = .ok l := by
  obtain ⟨x, hx, -, hl⟩ := C97_exact p hv (.included a) (.excluded b) (show a < 2 ^ 64 by omega) (by simp)
  obtain ⟨y, hy, -, hr⟩ := C97_exact p hl (.included c) (.excluded d) (show c < 2 ^ 64 by omega) (by simp)
  obtain ⟨z, hz, -, hs⟩ := C97_exact p hv (.included (a + c)) (.excluded (min b (a + d))) ha (by simp)
  refine ⟨x, y, z, _, hx, hy, hz, hr, ?_⟩
  rw [hs]
  congr 1
  rw [inRange_eq (s := a + c) (e := min b (a + d)) (fun i _ => rfl) (fun i _ => rfl),
    inRange_eq (s := c) (e := d) (fun i _ => rfl) (fun i _ => rfl),
    inRange_eq (s := a) (e := b) (fun i _ => rfl) (fun i _ => rfl),
    List.take_drop, List.drop_drop, List.take_take, Nat.min_comm b]

/-- The range of the code's own calls, `from..to` (growable_mmap.rs), is the `View.slice` of the model. -/
theorem sliceRange_eq_slice (p : Params) (v : View) (a b : Nat) :
    v.sliceRange p (.included a) (.excluded b) = .ok (v.slice a b) := by
  unfold View.sliceRange View.slice
  simp only [RangeEnd.first, RangeEnd.last]
  split
  · rfl
  · split
    · rfl
    · by_cases hb : b = 0
      · simp only [hb, if_true]
      · simp only [if_neg hb]

/-- **C97.** `View.slice`, the range `from..to` the database takes of its mappings, has exactly those bytes. -/
theorem C97_database {g : GM} {v : View} {bs : List UInt8} (hv : g.viewBytes v = .ok bs) {a b : Nat}
    (ha : a < 2 ^ 64) :
    (v.slice a b).len = min b bs.length - a ∧ g.viewBytes (v.slice a b) = .ok ((bs.take b).drop a) := by
  obtain ⟨w, hw, hl, hb⟩ := C97_exact {} hv (.included a) (.excluded b) ha (by simp)
  rw [sliceRange_eq_slice] at hw
  cases hw
  rw [inRange_eq (s := a) (e := b) (fun i _ => rfl) (fun i _ => rfl)] at hl hb
  refine ⟨?_, hb⟩
  rw [hl, List.length_drop, List.length_take]

/-- The range that starts after the largest index has nothing in it, but a release build returns the whole view and a
build with overflow checks panics. -/
theorem C97_wrap_false :
    ¬ ∀ (p : Params) (g : GM) (v : View) (bs : List UInt8) (lo hi : RangeEnd), g.viewBytes v = .ok bs → RangeEndOK lo →
      ∃ w, v.sliceRange p lo hi = .ok w ∧ g.viewBytes w = .ok (inRange lo hi bs) := by
  intro h
  obtain ⟨w, hw, hb⟩ := h {} ⟨none, true, [], [], none⟩ ⟨.anon ⟨1, fun _ => 7⟩, 0, 1⟩ [7] (.excluded (2 ^ 64 - 1)) .unbounded
    (by rfl) (show 2 ^ 64 - 1 < 2 ^ 64 by omega)
  have : w = ⟨.anon ⟨1, fun _ => 7⟩, 0, 1⟩ := (Except.ok.inj hw).symm
  rw [this] at hb
  exact absurd (Except.ok.inj hb) (by decide)

/-- **C97.** What becomes of the range that starts after the largest index: the whole view in a release build, a panic
with overflow checks. -/
theorem C97_wrap_exact (v : View) (hv : 0 < v.len) :
    v.sliceRange { checked := false } (.excluded (2 ^ 64 - 1)) .unbounded = .ok v ∧
    v.sliceRange { checked := true } (.excluded (2 ^ 64 - 1)) .unbounded = .error .panic := by
  have h0 : ¬ v.len = 0 := by omega
  have h1 : ¬ (0 ≥ v.len) := by omega
  constructor
  · unfold View.sliceRange
    rw [if_neg h0]
    have : RangeEnd.first { checked := false } (.excluded (2 ^ 64 - 1)) = .ok 0 := by decide
    rw [this]
    dsimp only
    rw [if_neg h1]
    obtain ⟨m, s, l⟩ := v
    simp only [RangeEnd.last, Nat.min_self, Nat.zero_le, if_true, Nat.add_zero, Nat.sub_zero]
    simp only at hv
    rw [Nat.sub_add_cancel (by omega)]
  · unfold View.sliceRange
    rw [if_neg h0]
    have : RangeEnd.first { checked := true } (.excluded (2 ^ 64 - 1)) = .error .panic := by decide
    rw [this]

/-- A view of four bytes, sliced in every way. -/
example :
    let g : GM := ⟨none, true, [], [], none⟩
    let v : View := ⟨.anon ⟨4, fun i => UInt8.ofNat (i + 10)⟩, 0, 4⟩
    g.viewBytes v = .ok [10, 11, 12, 13] ∧
    inRange (.included 1) (.excluded 3) [10, 11, 12, 13] = [11, 12] ∧
    inRange (.excluded 1) (.included 100) [10, 11, 12, 13] = [12, 13] ∧
    inRange (.included 3) (.excluded 1) [10, 11, 12, 13] = [] ∧
    inRange .unbounded (.excluded 0) [10, 11, 12, 13] = [] := by decide

end Verif.Props
