import Verif.Cardano.Fingerprint

/-!
# Blake2b

The hash of `/repo/cardano-utils/src/cip14.rs:13` (`cryptoxide`, not part of `/repo`), written out from RFC 7693, without a
key. Words of 64 bits are natural numbers. The model of fingerprints takes a hash as a parameter; this is the one the code
passes. It is checked against the test vectors of the project in `Verif/Conformance/Cardano.lean`.
-/

namespace Verif.Cardano.Blake2b

/-- The initial values, RFC 7693 section 2.6. -/
def iv : List Nat :=
  [0x6a09e667f3bcc908, 0xbb67ae8584caa73b, 0x3c6ef372fe94f82b, 0xa54ff53a5f1d36f1,
    0x510e527fade682d1, 0x9b05688c2b3e6c1f, 0x1f83d9abfb41bd6b, 0x5be0cd19137e2179]

/-- The schedule of message words, RFC 7693 section 2.7. -/
def sigma : List (List Nat) :=
  [[0, 1, 2, 3, 4, 5, 6, 7, 8, 9, 10, 11, 12, 13, 14, 15],
    [14, 10, 4, 8, 9, 15, 13, 6, 1, 12, 0, 2, 11, 7, 5, 3],
    [11, 8, 12, 0, 5, 2, 15, 13, 10, 14, 3, 6, 7, 1, 9, 4],
    [7, 9, 3, 1, 13, 12, 11, 14, 2, 6, 5, 10, 4, 0, 15, 8],
    [9, 0, 5, 7, 2, 4, 10, 15, 14, 1, 11, 12, 6, 8, 3, 13],
    [2, 12, 6, 10, 0, 11, 8, 3, 4, 13, 7, 5, 15, 14, 1, 9],
    [12, 5, 1, 15, 14, 13, 4, 10, 0, 7, 6, 3, 9, 2, 8, 11],
    [13, 11, 7, 14, 12, 1, 3, 9, 5, 0, 15, 4, 8, 6, 2, 10],
    [6, 15, 14, 9, 11, 3, 0, 8, 12, 2, 13, 7, 1, 4, 10, 5],
    [10, 2, 8, 4, 7, 6, 1, 5, 15, 11, 9, 14, 3, 12, 13, 0]]

/-- Addition of words. -/
def add (a b : Nat) : Nat := (a + b) % 2 ^ 64

/-- Rotation of a word to the right. -/
def ror (a n : Nat) : Nat := a / 2 ^ n + a % 2 ^ n * 2 ^ (64 - n)

/-- The mixing function, RFC 7693 section 3.1. -/
def g (v : List Nat) (a b c d x y : Nat) : List Nat :=
  let va := add (add (v.getD a 0) (v.getD b 0)) x
  let vd := ror ((v.getD d 0) ^^^ va) 32
  let vc := add (v.getD c 0) vd
  let vb := ror ((v.getD b 0) ^^^ vc) 24
  let va := add (add va vb) y
  let vd := ror (vd ^^^ va) 16
  let vc := add vc vd
  let vb := ror (vb ^^^ vc) 63
  (((v.set a va).set b vb).set c vc).set d vd

/-- The positions mixed in a round, in turn. -/
def lanes : List (Nat × Nat × Nat × Nat) :=
  [(0, 4, 8, 12), (1, 5, 9, 13), (2, 6, 10, 14), (3, 7, 11, 15), (0, 5, 10, 15), (1, 6, 11, 12), (2, 7, 8, 13), (3, 4, 9, 14)]

/-- One of the twelve rounds. -/
def round (m v : List Nat) (i : Nat) : List Nat :=
  let s := sigma.getD (i % 10) []
  lanes.zipIdx.foldl (fun v e => g v e.1.1 e.1.2.1 e.1.2.2.1 e.1.2.2.2
    (m.getD (s.getD (2 * e.2) 0) 0) (m.getD (s.getD (2 * e.2 + 1) 0) 0)) v

/-- The compression function, RFC 7693 section 3.2: `t` bytes have been read, `last` marks the last block. -/
def compress (h m : List Nat) (t : Nat) (last : Bool) : List Nat :=
  let v := h ++ iv
  let v := (v.set 12 (v.getD 12 0 ^^^ t % 2 ^ 64)).set 13 (v.getD 13 0 ^^^ t / 2 ^ 64)
  let v := if last then v.set 14 (v.getD 14 0 ^^^ (2 ^ 64 - 1)) else v
  let v := (List.range 12).foldl (round m) v
  (List.range 8).map (fun i => h.getD i 0 ^^^ v.getD i 0 ^^^ v.getD (i + 8) 0)

/-- The value of bytes, lowest first. -/
def value (b : Bytes) : Nat := b.foldr (fun x n => x.toNat + 256 * n) 0

/-- The sixteen words of a block of 128 bytes. -/
def words (b : Bytes) : List Nat := (List.range 16).map (fun i => value ((b.drop (8 * i)).take 8))

/-- The eight bytes of a word, lowest first. -/
def octets (w : Nat) : Bytes := (List.range 8).map (fun i => UInt8.ofNat (w / 256 ^ i))

/-- The blocks in turn; the last one is not full or is the end, and is filled with zeros. At most `n` blocks. -/
def absorb : Nat → List Nat → Nat → Bytes → List Nat
  | 0, h, _, _ => h
  | n + 1, h, t, b =>
    if b.length ≤ 128 then compress h (words (b ++ List.replicate (128 - b.length) 0)) (t + b.length) true
    else absorb n (compress h (words (b.take 128)) (t + 128) false) (t + 128) (b.drop 128)

/-- Blake2b with `n` bytes of output. -/
def hash (n : Nat) (b : Bytes) : Bytes :=
  ((absorb (b.length + 1) ((iv.getD 0 0 ^^^ 0x01010000 ^^^ n) :: iv.tail) 0 b).flatMap octets).take n

theorem compress_length (h m : List Nat) (t : Nat) (last : Bool) : (compress h m t last).length = 8 := by
  simp [compress]

theorem absorb_length (n : Nat) : ∀ (h : List Nat) (t : Nat) (b : Bytes), h.length = 8 → (absorb n h t b).length = 8 := by
  induction n with
  | zero => intro h _ _ e; exact e
  | succ n ih =>
    intro h t b e
    unfold absorb
    split
    · exact compress_length ..
    · exact ih _ _ _ (compress_length ..)

theorem flatMap_octets_length (l : List Nat) : (l.flatMap octets).length = 8 * l.length := by
  induction l with
  | nil => rfl
  | cons a l ih => rw [List.flatMap_cons, List.length_append, ih]; simp [octets]; omega

theorem hash_length {n : Nat} (h : n ≤ 64) (b : Bytes) : (hash n b).length = n := by
  unfold hash
  rw [List.length_take, flatMap_octets_length, absorb_length _ _ _ _ (by rfl)]
  omega

end Verif.Cardano.Blake2b
