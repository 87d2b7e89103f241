import Verif.Cardano.Bech32

/-!
# Bech32: the checksum is linear, and what is written is read back
-/

namespace Verif.Cardano.Bech32

/-! ### The checksum -/

theorem and_xor (a b m : BitVec 32) : (a ^^^ b) &&& m = (a &&& m) ^^^ (b &&& m) := by
  ext i; simp only [BitVec.getElem_and, BitVec.getElem_xor]; cases a[i] <;> cases b[i] <;> cases m[i] <;> rfl

theorem cond_xor (a b : Bool) (g : BitVec 32) :
    (if (a ^^ b) = true then g else 0#32) = (if a = true then g else 0#32) ^^^ (if b = true then g else 0#32) := by
  cases a <;> cases b <;> simp

theorem mix_xor (c e : BitVec 32) : mix (c ^^^ e) = mix c ^^^ mix e := by
  unfold mix
  rw [and_xor, BitVec.shiftLeft_xor_distrib]
  simp only [BitVec.getLsbD_xor, cond_xor]
  ac_rfl

theorem run_append (c : BitVec 32) (vs ws : List (BitVec 32)) : run c (vs ++ ws) = run (run c vs) ws := by
  unfold run; rw [List.foldl_append]

theorem run_xor : ∀ (vs ws : List (BitVec 32)) (c e : BitVec 32), vs.length = ws.length →
    run (c ^^^ e) (List.zipWith (· ^^^ ·) vs ws) = run c vs ^^^ run e ws
  | [], [], _, _, _ => rfl
  | v :: vs, w :: ws, c, e, h => by
    have := run_xor vs ws (mix c ^^^ v) (mix e ^^^ w) (by simpa using h)
    unfold run at this ⊢
    simp only [List.zipWith_cons_cons, List.foldl_cons]
    rw [← this, mix_xor]
    congr 1
    ac_rfl

theorem mix_zero : mix 0#32 = 0#32 := by decide

/-- The state has thirty bits. -/
def Small (c : BitVec 32) : Prop := c.toNat < 2 ^ 30

theorem small_xor {a b : BitVec 32} (ha : Small a) (hb : Small b) : Small (a ^^^ b) := by
  unfold Small
  rw [BitVec.toNat_xor]
  exact Nat.xor_lt_two_pow ha hb

theorem small_mix (c : BitVec 32) : Small (mix c) := by
  have hk : ∀ (b : Bool) (g : BitVec 32), Small g → Small (if b = true then g else 0#32) := by
    intro b g hg; cases b
    · show (0 : Nat) < 2 ^ 30; decide
    · exact hg
  unfold mix
  refine small_xor (small_xor (small_xor (small_xor (small_xor ?_ ?_) ?_) ?_) ?_) ?_
  · unfold Small
    have : (c &&& 0x1ffffff#32).toNat < 2 ^ 25 := by
      rw [BitVec.toNat_and]
      exact Nat.lt_of_le_of_lt Nat.and_le_right (by decide)
    rw [BitVec.toNat_shiftLeft, Nat.shiftLeft_eq]
    refine Nat.lt_of_le_of_lt (Nat.mod_le _ _) ?_
    omega
  all_goals exact hk _ _ (by unfold Small; decide)

theorem getLsbD_high {c : BitVec 32} {k i : Nat} (h : c.toNat < 2 ^ k) (hi : k ≤ i) : c.getLsbD i = false := by
  rw [BitVec.getLsbD]
  exact Nat.testBit_lt_two_pow (Nat.lt_of_lt_of_le h (Nat.pow_le_pow_right (by decide) hi))

/-- Below 25 bits there is nothing to reduce. -/
theorem mix_low {c : BitVec 32} (h : c.toNat < 2 ^ 25) : (mix c).toNat = c.toNat * 32 := by
  unfold mix
  rw [getLsbD_high h (i := 25) (by decide), getLsbD_high h (i := 26) (by decide), getLsbD_high h (i := 27) (by decide),
    getLsbD_high h (i := 28) (by decide), getLsbD_high h (i := 29) (by decide)]
  simp only [Bool.false_eq_true, if_false, BitVec.xor_zero]
  have : (c &&& 0x1ffffff#32).toNat = c.toNat := by
    rw [BitVec.toNat_and]
    exact Nat.and_two_pow_sub_one_of_lt_two_pow (n := 25) h
  rw [BitVec.toNat_shiftLeft, this, Nat.shiftLeft_eq, Nat.mod_eq_of_lt (by omega)]

theorem xor_low {a v : Nat} (hv : v < 32) : (a * 32) ^^^ v = a * 32 + v := by
  apply Nat.eq_of_testBit_eq
  intro i
  rw [Nat.testBit_xor, show a * 32 + v = 2 ^ 5 * a + v by omega, Nat.testBit_two_pow_mul_add _ (show v < 2 ^ 5 from hv),
    show a * 32 = 2 ^ 5 * a by omega, Nat.testBit_two_pow_mul]
  by_cases hi : i < 5
  · simp [hi, show ¬ 5 ≤ i by omega]
  · rw [if_neg hi, Nat.testBit_lt_two_pow (Nat.lt_of_lt_of_le hv (Nat.pow_le_pow_right (n := 2) (by decide) (show 5 ≤ i by omega)))]
    simp [show 5 ≤ i by omega]

theorem word_toNat (v : Fin 32) : (word v).toNat = v.val := by
  unfold word
  rw [BitVec.toNat_ofNat, Nat.mod_eq_of_lt (by have := v.isLt; omega)]

/-- Up to six groups are just written one after the other. -/
theorem run_digits : ∀ (vs : List (Fin 32)) (c : BitVec 32) (k : Nat), vs.length + k ≤ 6 → c.toNat < 32 ^ k →
    (run c (vs.map word)).toNat = vs.foldl (fun n v => n * 32 + v.val) c.toNat
  | [], _, _, _, _ => rfl
  | v :: vs, c, k, h, hc => by
    have hv := v.isLt
    have h25 : c.toNat < 2 ^ 25 := by
      refine Nat.lt_of_lt_of_le hc ?_
      calc 32 ^ k ≤ 32 ^ 5 := Nat.pow_le_pow_right (by decide) (by simp only [List.length_cons] at h; omega)
        _ = 2 ^ 25 := by decide
    have he : (mix c ^^^ word v).toNat = c.toNat * 32 + v.val := by
      rw [BitVec.toNat_xor, mix_low h25, word_toNat, xor_low hv]
    have := run_digits vs (mix c ^^^ word v) (k + 1) (by simp only [List.length_cons] at h; omega)
      (by rw [he, pow_succ]; omega)
    rw [he] at this
    exact this

theorem eq_zero_of_mix {e : BitVec 32} (hs : Small e) (h : mix e = 0#32) : e = 0#32 := by
  have hlow : ∀ g : BitVec 32, ((e &&& 0x1ffffff#32) <<< 5 ^^^ g) = 0#32 → g &&& 31#32 = 0#32 := by
    intro g hg
    have hz : ((e &&& 0x1ffffff#32) <<< 5) &&& 31#32 = 0#32 := by
      ext i hi
      simp only [BitVec.getElem_and, BitVec.getElem_shiftLeft, BitVec.getElem_zero]
      by_cases h5 : i < 5
      · simp [h5]
      · have : (31#32)[i] = false := by
          rw [← BitVec.getLsbD_eq_getElem]
          exact getLsbD_high (k := 5) (by decide) (by omega)
        rw [this]; simp
    have := congrArg (· &&& 31#32) hg
    simp only [and_xor, hz, BitVec.zero_xor, BitVec.zero_and] at this
    exact this
  have ht : e.getLsbD 25 = false ∧ e.getLsbD 26 = false ∧ e.getLsbD 27 = false ∧ e.getLsbD 28 = false ∧
      e.getLsbD 29 = false := by
    unfold mix at h
    revert h
    generalize e.getLsbD 25 = b0
    generalize e.getLsbD 26 = b1
    generalize e.getLsbD 27 = b2
    generalize e.getLsbD 28 = b3
    generalize e.getLsbD 29 = b4
    intro h
    simp only [BitVec.xor_assoc] at h
    replace h := hlow _ h
    revert h
    clear hlow hs
    revert b0 b1 b2 b3 b4
    decide
  have h25 : e.toNat < 2 ^ 25 := by
    refine Nat.lt_pow_two_of_testBit _ (fun i hi => ?_)
    by_cases h30 : i < 30
    · have : i = 25 ∨ i = 26 ∨ i = 27 ∨ i = 28 ∨ i = 29 := by omega
      rcases this with rfl | rfl | rfl | rfl | rfl
      exacts [ht.1, ht.2.1, ht.2.2.1, ht.2.2.2.1, ht.2.2.2.2]
    · exact getLsbD_high hs (by omega)
  have := mix_low h25
  rw [h] at this
  apply BitVec.eq_of_toNat_eq
  simp only [BitVec.toNat_ofNat] at this ⊢
  omega

theorem run_zero (k : Nat) : run 0#32 (List.replicate k 0#32) = 0#32 := by
  induction k with
  | zero => rfl
  | succ k ih =>
    rw [List.replicate_succ]
    show run (mix 0#32 ^^^ 0#32) _ = _
    rw [mix_zero]
    exact ih

theorem zipWith_zero_left : ∀ (vs : List (BitVec 32)) (k : Nat), vs.length = k →
    List.zipWith (· ^^^ ·) (List.replicate k 0#32) vs = vs
  | [], _, h => by subst h; rfl
  | v :: vs, _, h => by
    subst h
    rw [List.length_cons, List.replicate_succ, List.zipWith_cons_cons, zipWith_zero_left vs _ rfl, BitVec.zero_xor]

/-- Groups after a state: the zeros after it, and the groups from zero. -/
theorem run_split (c : BitVec 32) (vs : List (BitVec 32)) :
    run c vs = run c (List.replicate vs.length 0#32) ^^^ run 0#32 vs := by
  have := run_xor (List.replicate vs.length 0#32) vs c 0#32 (by simp)
  rw [zipWith_zero_left _ _ rfl, BitVec.xor_zero] at this
  exact this

theorem small_run : ∀ (vs : List (BitVec 32)) (c : BitVec 32), Small c → (∀ v ∈ vs, Small v) → Small (run c vs)
  | [], _, h, _ => h
  | v :: vs, c, _, hv => small_run vs (mix c ^^^ v) (small_xor (small_mix c) (hv v (by simp))) (fun w hw => hv w (by simp [hw]))

/-- Zeros after a difference do not hide it. -/
theorem eq_zero_of_run : ∀ (k : Nat) (e : BitVec 32), Small e → run e (List.replicate k 0#32) = 0#32 → e = 0#32
  | 0, _, _, h => h
  | k + 1, e, hs, h => by
    rw [List.replicate_succ] at h
    have h : run (mix e ^^^ 0#32) (List.replicate k 0#32) = 0#32 := h
    rw [BitVec.xor_zero] at h
    exact eq_zero_of_mix hs (eq_zero_of_run k _ (small_mix e) h)

theorem small_word (v : Fin 32) : Small (word v) := by
  unfold Small; rw [word_toNat]; have := v.isLt; omega

theorem digits_groups {n : Nat} (h : n < 2 ^ 30) :
    ((List.range 6).map (fun i => n / 2 ^ (5 * (5 - i)) % 32)).foldl (fun m v => m * 32 + v) 0 = n := by
  simp only [List.range, List.range.loop, List.map_cons, List.map_nil, List.foldl_cons, List.foldl_nil]
  norm_num
  omega

/-- What `create_checksum` appends is accepted. -/
theorem polymod_checksum (hrp : List Char) (vs : List (Fin 32)) : polymod hrp (vs ++ checksum hrp vs) = 1#32 := by
  unfold checksum
  generalize hp : polymod hrp (vs ++ List.replicate 6 0) ^^^ 1#32 = p
  unfold polymod at hp ⊢
  rw [List.map_append, ← List.append_assoc, run_append] at hp ⊢
  generalize run 1#32 (expand hrp ++ vs.map word) = c at hp ⊢
  have hz : (List.replicate 6 (0 : Fin 32)).map word = List.replicate 6 0#32 := by decide
  rw [hz] at hp
  have hsm : Small p := by
    rw [← hp]
    refine small_xor ?_ (by unfold Small; decide)
    show Small (run (mix c ^^^ 0#32) (List.replicate 5 0#32))
    refine small_run _ _ (small_xor (small_mix c) (by unfold Small; decide)) ?_
    intro v hv
    rw [List.eq_of_mem_replicate hv]
    unfold Small; decide
  rw [run_split]
  have hd : run 0#32 (((List.range 6).map (group p)).map word) = p := by
    apply BitVec.eq_of_toNat_eq
    rw [run_digits _ _ 0 (by simp) (by decide)]
    have := digits_groups hsm
    rw [List.foldl_map] at this ⊢
    exact this
  rw [hd, ← hp]
  simp only [List.length_map, List.length_range]
  rw [← BitVec.xor_assoc, BitVec.xor_self, BitVec.zero_xor]

/-- Two data parts that are both accepted and differ in at most six neighbouring groups are the same. -/
theorem window_eq {hrp : List Char} {a w w' z : List (Fin 32)} (hl : w.length = w'.length) (h6 : w.length ≤ 6)
    (h : polymod hrp (a ++ w ++ z) = 1#32) (h' : polymod hrp (a ++ w' ++ z) = 1#32) : w = w' := by
  unfold polymod at h h'
  simp only [List.map_append, ← List.append_assoc, run_append] at h h'
  generalize run (run 1#32 (expand hrp)) (a.map word) = c at h h'
  have e1 := run_split (run c (w.map word)) (z.map word)
  have e2 := run_split (run c (w'.map word)) (z.map word)
  rw [h] at e1
  rw [h'] at e2
  have e3 : run (run c (w.map word)) (List.replicate (z.map word).length 0#32) =
      run (run c (w'.map word)) (List.replicate (z.map word).length 0#32) := by
    have := e1.symm.trans e2
    have := congrArg (· ^^^ run 0#32 (z.map word)) this
    simpa only [BitVec.xor_assoc, BitVec.xor_self, BitVec.xor_zero] using this
  have hdiff : run (run c (w.map word) ^^^ run c (w'.map word)) (List.replicate (z.map word).length 0#32) = 0#32 := by
    have := run_xor (List.replicate (z.map word).length 0#32) (List.replicate (z.map word).length 0#32)
      (run c (w.map word)) (run c (w'.map word)) rfl
    rw [e3, BitVec.xor_self, zipWith_zero_left _ _ (by simp)] at this
    exact this
  have hsm : Small (run c (w.map word) ^^^ run c (w'.map word)) := by
    rw [run_split c (w.map word), run_split c (w'.map word)]
    simp only [List.length_map, ← hl]
    have hx : ∀ x y z : BitVec 32, (x ^^^ y) ^^^ (x ^^^ z) = y ^^^ z := by
      intro x y z
      rw [show (x ^^^ y) ^^^ (x ^^^ z) = (x ^^^ x) ^^^ (y ^^^ z) by ac_rfl, BitVec.xor_self, BitVec.zero_xor]
    rw [hx]
    have hz : Small 0#32 := by unfold Small; decide
    refine small_xor (small_run _ _ hz ?_) (small_run _ _ hz ?_) <;>
    · intro v hv
      obtain ⟨x, _, rfl⟩ := List.mem_map.mp hv
      exact small_word x
  have h0 := eq_zero_of_run _ _ hsm hdiff
  have he : run 0#32 (w.map word) = run 0#32 (w'.map word) := by
    rw [run_split c (w.map word), run_split c (w'.map word)] at h0
    simp only [List.length_map, ← hl] at h0
    have hx : ∀ x y z : BitVec 32, (x ^^^ y) ^^^ (x ^^^ z) = y ^^^ z := by
      intro x y z
      rw [show (x ^^^ y) ^^^ (x ^^^ z) = (x ^^^ x) ^^^ (y ^^^ z) by ac_rfl, BitVec.xor_self, BitVec.zero_xor]
    rw [hx] at h0
    exact BitVec.xor_eq_zero_iff.mp h0
  have hn := congrArg BitVec.toNat he
  rw [run_digits _ _ 0 (by omega) (by decide), run_digits _ _ 0 (by omega) (by decide)] at hn
  clear * - hl hn
  have key : ∀ (w w' : List (Fin 32)) (n n' : Nat), w.length = w'.length →
      w.foldl (fun n v => n * 32 + v.val) n = w'.foldl (fun n v => n * 32 + v.val) n' → n = n' ∧ w = w' := by
    intro w
    induction w with
    | nil => intro w' n n' hl h; cases w' with
      | nil => exact ⟨h, rfl⟩
      | cons => simp at hl
    | cons v w ih =>
      intro w' n n' hl h
      cases w' with
      | nil => simp at hl
      | cons v' w' =>
        obtain ⟨h1, h2⟩ := ih w' (n * 32 + v.val) (n' * 32 + v'.val) (by simpa using hl) h
        have := v.isLt
        have := v'.isLt
        exact ⟨by omega, by rw [h2, Fin.ext (show v.val = v'.val by omega)]⟩
  exact (key w w' _ _ hl hn).2

/-! ### Groups of five bits -/

theorem bits_ofBits (a b c d e : Bool) : bits (ofBits [a, b, c, d, e]) 5 = [a, b, c, d, e] := by
  revert a b c d e; decide

theorem ungroup : ∀ l : List Bool, ∃ r ≤ 4, (groups l).flatMap (fun v => bits v.val 5) = l ++ List.replicate r false
  | a :: b :: c :: d :: e :: t => by
    obtain ⟨r, hr, h⟩ := ungroup t
    refine ⟨r, hr, ?_⟩
    rw [groups, List.flatMap_cons, h]
    show bits (ofBits [a, b, c, d, e]) 5 ++ _ = _
    rw [bits_ofBits]
    rfl
  | [a, b, c, d] => ⟨1, by decide, by
    rw [groups, List.flatMap_cons]; show bits (ofBits [a, b, c, d, false]) 5 ++ _ = _; rw [bits_ofBits]; rfl⟩
  | [a, b, c] => ⟨2, by decide, by
    rw [groups, List.flatMap_cons]; show bits (ofBits [a, b, c, false, false]) 5 ++ _ = _; rw [bits_ofBits]; rfl⟩
  | [a, b] => ⟨3, by decide, by
    rw [groups, List.flatMap_cons]; show bits (ofBits [a, b, false, false, false]) 5 ++ _ = _; rw [bits_ofBits]; rfl⟩
  | [a] => ⟨4, by decide, by
    rw [groups, List.flatMap_cons]; show bits (ofBits [a, false, false, false, false]) 5 ++ _ = _; rw [bits_ofBits]; rfl⟩
  | [] => ⟨0, by decide, rfl⟩

theorem byte_bits : ∀ n < 256, ofBits (bits n 8) = n := by decide +kernel

theorem octets_bits : ∀ (b : Bytes) (r : Nat), r ≤ 4 →
    octets (b.flatMap (fun x => bits x.toNat 8) ++ List.replicate r false) = some b
  | [], 0, _ => rfl
  | [], 1, _ => rfl
  | [], 2, _ => rfl
  | [], 3, _ => rfl
  | [], 4, _ => rfl
  | [], r + 5, h => by omega
  | x :: b, r, h => by
    have ih := octets_bits b r h
    have hx := byte_bits x.toNat x.toNat_lt
    rw [List.flatMap_cons, List.append_assoc]
    show octets (x.toNat.testBit 7 :: x.toNat.testBit 6 :: x.toNat.testBit 5 :: x.toNat.testBit 4 :: x.toNat.testBit 3 ::
      x.toNat.testBit 2 :: x.toNat.testBit 1 :: x.toNat.testBit 0 :: (b.flatMap (fun x => bits x.toNat 8) ++ List.replicate r false)) = _
    rw [octets, ih]
    show some (UInt8.ofNat (ofBits (bits x.toNat 8)) :: b) = _
    rw [hx, UInt8.ofNat_toNat]

theorem fromBase32_toBase32 (b : Bytes) : fromBase32 (toBase32 b) = some b := by
  unfold fromBase32 toBase32
  obtain ⟨r, hr, h⟩ := ungroup (b.flatMap (fun x => bits x.toNat 8))
  rw [h]
  exact octets_bits b r hr

/-! ### The text -/

theorem letter_facts : ∀ v : Fin 32, value (letter v) = some v ∧ letter v ≠ '1' ∧ isUpper (letter v) = false := by
  decide +kernel

theorem mapM_value (vs : List (Fin 32)) : (vs.map letter).mapM value = some vs := by
  induction vs with
  | nil => rfl
  | cons v vs ih => rw [List.map_cons, List.mapM_cons, (letter_facts v).1, ih]; rfl

theorem splitLast_none {s : List Char} (h : ∀ c ∈ s, c ≠ '1') : splitLast s = none := by
  induction s with
  | nil => rfl
  | cons c s ih =>
    rw [splitLast, ih (fun d hd => h d (by simp [hd])), if_neg (h c (by simp))]

theorem splitLast_append (hrp data : List Char) (h : ∀ c ∈ data, c ≠ '1') :
    splitLast (hrp ++ '1' :: data) = some (hrp, data) := by
  induction hrp with
  | nil => rw [List.nil_append, splitLast, splitLast_none h, if_pos rfl]
  | cons c s ih => rw [List.cons_append, splitLast, ih]

theorem lower_facts {c : Char} (h : 33 ≤ c.toNat ∧ c.toNat ≤ 126) :
    33 ≤ (lower c).toNat ∧ (lower c).toNat ≤ 126 ∧ isUpper (lower c) = false ∧ lower (lower c) = lower c := by
  have key : ∀ n < 127, 33 ≤ n → 33 ≤ (lower (Char.ofNat n)).toNat ∧ (lower (Char.ofNat n)).toNat ≤ 126 ∧
      isUpper (lower (Char.ofNat n)) = false ∧ lower (lower (Char.ofNat n)) = lower (Char.ofNat n) := by decide +kernel
  have := key c.toNat (by omega) h.1
  rwa [Char.ofNat_toNat] at this

theorem checksum_length (hrp : List Char) (vs : List (Fin 32)) : (checksum hrp vs).length = 6 := by
  unfold checksum; simp

/-- What is written is read back, with the prefix in lower case. -/
theorem decode_encode {hrp : List Char} {vs : List (Fin 32)} {s : List Char} (h : encode hrp vs = some s) :
    decode s = some (hrp.map lower, vs) := by
  unfold encode at h
  split at h
  · rename_i hok
    rw [Bool.and_eq_true] at hok
    obtain ⟨hp, _⟩ := hok
    unfold prefixOk at hp
    simp only [Bool.and_eq_true, Bool.not_eq_true', List.isEmpty_eq_false_iff, decide_eq_true_eq, List.all_eq_true] at hp
    obtain ⟨⟨hne, hlen⟩, hr⟩ := hp
    cases h
    have hll : (hrp.map lower).map lower = hrp.map lower := by
      rw [List.map_map]
      exact List.map_congr_left (fun c hc => (lower_facts (hr c hc)).2.2.2)
    have hd1 : ∀ c ∈ (vs ++ checksum (hrp.map lower) vs).map letter, c ≠ '1' := by
      intro c hc
      obtain ⟨v, _, rfl⟩ := List.mem_map.mp hc
      exact (letter_facts v).2.1
    unfold decode
    rw [splitLast_append _ _ hd1]
    simp only
    have hcond : (prefixOk (hrp.map lower) && oneCase (hrp.map lower ++ (vs ++ checksum (hrp.map lower) vs).map letter) &&
        decide (6 ≤ ((vs ++ checksum (hrp.map lower) vs).map letter).length)) = true := by
      simp only [Bool.and_eq_true, decide_eq_true_eq]
      refine ⟨⟨?_, ?_⟩, by rw [List.length_map, List.length_append, checksum_length]; omega⟩
      · unfold prefixOk
        simp only [Bool.and_eq_true, Bool.not_eq_true', List.isEmpty_eq_false_iff, decide_eq_true_eq, List.all_eq_true]
        refine ⟨⟨by simpa using hne, by simpa using hlen⟩, ?_⟩
        intro c hc
        obtain ⟨d, hd, rfl⟩ := List.mem_map.mp hc
        exact ⟨(lower_facts (hr d hd)).1, (lower_facts (hr d hd)).2.1⟩
      · unfold oneCase
        have : (hrp.map lower ++ (vs ++ checksum (hrp.map lower) vs).map letter).any isUpper = false := by
          rw [List.any_eq_false]
          intro c hc
          rcases List.mem_append.mp hc with hc | hc
          · obtain ⟨d, hd, rfl⟩ := List.mem_map.mp hc
            rw [(lower_facts (hr d hd)).2.2.1]; decide
          · obtain ⟨v, _, rfl⟩ := List.mem_map.mp hc
            rw [(letter_facts v).2.2]; decide
        rw [this]; rfl
    rw [if_pos hcond, mapM_value]
    simp only
    rw [hll, if_pos (polymod_checksum _ _), List.length_append, checksum_length, Nat.add_sub_cancel, List.take_left']
    rfl
  · cases h

end Verif.Cardano.Bech32
