import Verif.Msg

/- The float wire format is exact on finite binary32 numbers. -/
namespace Buzz.Msg

open Buzz.F32

theorem intOfU32_u32OfInt (i : Int) (h1 : -2147483648 ≤ i) (h2 : i ≤ 2147483647) :
    intOfU32 (u32OfInt i) = i := by
  unfold intOfU32 u32OfInt
  split <;> omega

theorem u32OfInt_lt (i : Int) : u32OfInt i < 4294967296 := by
  unfold u32OfInt; omega

theorem rnd_maxMantissa : rnd maxMantissa = 2147483648 := by
  have hlog : Int.log 2 |maxMantissa| = 30 := by
    have : |maxMantissa| = ((2147483646 : ℕ) : ℚ) := by
      unfold maxMantissa; norm_num
    rw [this, Int.log_natCast]
    have : Nat.log 2 2147483646 = 30 := by
      rw [Nat.log_eq_iff (by norm_num)]; norm_num
    rw [this]; rfl
  have hu : ulpExp maxMantissa = 7 := by unfold ulpExp; rw [hlog]; norm_num
  unfold rnd
  rw [if_neg (by unfold maxMantissa; norm_num), hu]
  have hf : ⌊maxMantissa / 2 ^ (7 : ℤ)⌋ = 16777215 := by
    rw [Int.floor_eq_iff]; unfold maxMantissa; norm_num
  have : roundEven (maxMantissa / 2 ^ (7 : ℤ)) = 16777216 := by
    unfold roundEven
    simp only [hf]
    rw [if_neg (by unfold maxMantissa; norm_num), if_pos (by unfold maxMantissa; norm_num)]
    norm_num
  rw [this]; norm_num

theorem rnd_twice_max : rnd (2 * rnd maxMantissa) = 4294967296 := by
  rw [rnd_maxMantissa]
  have := rnd_exact 1 32 (by norm_num) (by norm_num)
  norm_num at this ⊢
  exact this

/-- The significand of a non-zero binary32 number, as a 24-bit integer. -/
theorem signif {x : ℚ} (h : IsF32 x) (h0 : x ≠ 0) : ∃ M : ℤ, 2 ^ 23 ≤ M ∧ M < 2 ^ 24 ∧
    |x| = M * 2 ^ (Int.log 2 |x| - 23) ∧ -149 ≤ Int.log 2 |x| ∧ Int.log 2 |x| ≤ 127 := by
  obtain ⟨n, k, hn, hk, hk2, hx⟩ := h
  have hpos : 0 < |x| := abs_pos.mpr h0
  have h2 : (2 : ℚ) ≠ 0 := by norm_num
  have habs : |x| = ((|n| : ℤ) : ℚ) * 2 ^ k := by
    rw [hx, abs_mul, abs_of_pos (two_zpow_pos k), Int.cast_abs]
  set L := Int.log 2 |x| with hL
  have hlo : (2 : ℚ) ^ L ≤ |x| := by
    have := Int.zpow_log_le_self (R := ℚ) (b := 2) (by norm_num) hpos
    simpa using this
  have hhi : |x| < (2 : ℚ) ^ (L + 1) := by
    have := Int.lt_zpow_succ_log_self (R := ℚ) (b := 2) (by norm_num) |x|
    simpa using this
  have hnq : ((|n| : ℤ) : ℚ) < 2 ^ (24 : ℤ) := by
    have : ((|n| : ℤ) : ℚ) < ((2 ^ 24 : ℤ) : ℚ) := by exact_mod_cast hn
    norm_num at this ⊢
    exact this
  have hn1 : (1 : ℚ) ≤ ((|n| : ℤ) : ℚ) := by
    have : n ≠ 0 := by
      intro e; apply h0; rw [hx, e]; simp
    have : 1 ≤ |n| := Int.one_le_abs this
    exact_mod_cast this
  have hLk : L < 24 + k := by
    have : (2 : ℚ) ^ L < 2 ^ (24 + k) := by
      refine lt_of_le_of_lt hlo ?_
      rw [habs, zpow_add₀ h2]
      exact mul_lt_mul_of_pos_right hnq (two_zpow_pos k)
    exact (zpow_lt_zpow_iff_right₀ (by norm_num : (1 : ℚ) < 2)).mp this
  have hkL : k < L + 1 := by
    have : (2 : ℚ) ^ k < 2 ^ (L + 1) := by
      refine lt_of_le_of_lt ?_ hhi
      rw [habs]
      have := mul_le_mul_of_nonneg_right hn1 (le_of_lt (two_zpow_pos k))
      simpa using this
    exact (zpow_lt_zpow_iff_right₀ (by norm_num : (1 : ℚ) < 2)).mp this
  have hM : |x| = ((|n| * 2 ^ (k + 23 - L).toNat : ℤ) : ℚ) * 2 ^ (L - 23) := by
    push_cast
    have hp : (2 : ℚ) ^ (k + 23 - L).toNat = 2 ^ (k + 23 - L) := by
      rw [← zpow_natCast, Int.toNat_of_nonneg (by omega)]
    rw [hp, mul_assoc, ← zpow_add₀ h2, habs]
    push_cast
    congr 2
    ring
  refine ⟨|n| * 2 ^ (k + 23 - L).toNat, ?_, ?_, hM, by omega, by omega⟩
  · have : (2 : ℚ) ^ (23 : ℤ) * 2 ^ (L - 23) ≤ ((|n| * 2 ^ (k + 23 - L).toNat : ℤ) : ℚ) * 2 ^ (L - 23) := by
      rw [← hM, ← zpow_add₀ h2]
      have : (23 : ℤ) + (L - 23) = L := by ring
      rw [this]; exact hlo
    have := le_of_mul_le_mul_right this (two_zpow_pos _)
    exact_mod_cast this
  · have : ((|n| * 2 ^ (k + 23 - L).toNat : ℤ) : ℚ) * 2 ^ (L - 23) < (2 : ℚ) ^ (24 : ℤ) * 2 ^ (L - 23) := by
      rw [← hM, ← zpow_add₀ h2]
      have : (24 : ℤ) + (L - 23) = L + 1 := by ring
      rw [this]; exact hhi
    have := lt_of_mul_lt_mul_right this (le_of_lt (two_zpow_pos _))
    exact_mod_cast this

theorem floor_intCast' (t : ℤ) (h0 : 0 ≤ t) (h : t ≤ 2147483647) : toInt32 (t : ℚ) = .ok t := by
  have hq : (0 : ℚ) ≤ (t : ℚ) := by exact_mod_cast h0
  simp only [toInt32, if_pos hq, Int.floor_intCast]
  rw [if_pos ⟨by omega, h⟩]

/-- Mantissa and exponent sent for a non-zero number. -/
theorem floatParts_spec {x : ℚ} (h0 : x ≠ 0) {M : ℤ} (h1 : 2 ^ 23 ≤ M) (h2 : M < 2 ^ 24)
    (hM : |x| = M * 2 ^ (Int.log 2 |x| - 23)) :
    floatParts x = .ok (if x < 0 then -((M - 2 ^ 23) * 256 + 1) else (M - 2 ^ 23) * 256 + 1, Int.log 2 |x| + 1) := by
  have h2' : (2 : ℚ) ≠ 0 := by norm_num
  set L := Int.log 2 |x| with hL
  have hfe : frexp x = (x / 2 ^ (L + 1), L + 1) := by simp [frexp, h0, hL]
  have habs : |x / 2 ^ (L + 1)| - 1 / 2 = ((M - 2 ^ 23 : ℤ) : ℚ) * 2 ^ (-24 : ℤ) := by
    rw [abs_div, abs_of_pos (two_zpow_pos (L + 1)), hM]
    have : (M : ℚ) * 2 ^ (L - 23) / 2 ^ (L + 1) = M * 2 ^ (-24 : ℤ) := by
      rw [mul_div_assoc, ← zpow_sub₀ h2']
      congr 2
      ring
    rw [this]
    push_cast
    norm_num
    ring
  have habs' : |(M - 2 ^ 23 : ℤ)| < 2 ^ 24 := by rw [abs_of_nonneg (by omega)]; omega
  have hr1 : rnd (|x / 2 ^ (L + 1)| - 1 / 2) = ((M - 2 ^ 23 : ℤ) : ℚ) * 2 ^ (-24 : ℤ) := by
    rw [habs]; exact rnd_exact _ _ habs' (by norm_num)
  have hr2 : rnd (((M - 2 ^ 23 : ℤ) : ℚ) * 2 ^ (-24 : ℤ) * 2) = ((M - 2 ^ 23 : ℤ) : ℚ) * 2 ^ (-23 : ℤ) := by
    have : ((M - 2 ^ 23 : ℤ) : ℚ) * 2 ^ (-24 : ℤ) * 2 = ((M - 2 ^ 23 : ℤ) : ℚ) * 2 ^ (-23 : ℤ) := by
      norm_num; ring
    rw [this]; exact rnd_exact _ _ habs' (by norm_num)
  have hr3 : rnd (((M - 2 ^ 23 : ℤ) : ℚ) * 2 ^ (-23 : ℤ) * 2147483648) = (((M - 2 ^ 23) * 256 : ℤ) : ℚ) := by
    have : ((M - 2 ^ 23 : ℤ) : ℚ) * 2 ^ (-23 : ℤ) * 2147483648 = ((M - 2 ^ 23 : ℤ) : ℚ) * 2 ^ (8 : ℤ) := by
      norm_num; ring
    rw [this, rnd_exact _ _ habs' (by norm_num)]
    push_cast
    norm_num
  have hnn : ¬ (((M - 2 ^ 23 : ℤ) : ℚ) * 2 ^ (-24 : ℤ) < 0) := by
    apply not_lt.mpr
    apply mul_nonneg _ (le_of_lt (two_zpow_pos _))
    have : (0 : ℤ) ≤ M - 2 ^ 23 := by omega
    exact_mod_cast this
  have ht := floor_intCast' ((M - 2 ^ 23) * 256) (by omega) (by omega)
  have ha : addI32 ((M - 2 ^ 23) * 256) 1 = .ok ((M - 2 ^ 23) * 256 + 1) := by
    unfold addI32; rw [if_pos ⟨by omega, by omega⟩]
  simp only [floatParts, hfe, hr1, if_neg hnn, hr2, rnd_maxMantissa, hr3, ht, Res.ok_bind, ha, Res.pure_eq]

/-- What the receiver computes from a mantissa and exponent of that form. -/
theorem floatJoin_spec {x : ℚ} (hx : IsF32 x) (h0 : x ≠ 0) {M : ℤ} (h1 : 2 ^ 23 ≤ M) (h2 : M < 2 ^ 24)
    (hM : |x| = M * 2 ^ (Int.log 2 |x| - 23)) :
    floatJoin (if x < 0 then -((M - 2 ^ 23) * 256 + 1) else (M - 2 ^ 23) * 256 + 1) (Int.log 2 |x| + 1)
      = .ok (.fin x) := by
  have h2' : (2 : ℚ) ≠ 0 := by norm_num
  set L := Int.log 2 |x| with hL
  set m : ℤ := if x < 0 then -((M - 2 ^ 23) * 256 + 1) else (M - 2 ^ 23) * 256 + 1 with hm
  have hmabs : |m| = (M - 2 ^ 23) * 256 + 1 := by
    rw [hm]; split
    · rw [abs_neg, abs_of_pos (by omega)]
    · rw [abs_of_pos (by omega)]
  have hm0 : m ≠ 0 := by
    intro h; rw [h] at hmabs; simp at hmabs; omega
  have hmm : m ≠ -2147483648 := by
    intro h; rw [h] at hmabs; norm_num at hmabs; omega
  have hmneg : m < 0 ↔ x < 0 := by
    rw [hm]; split
    · rename_i hx; exact ⟨fun _ => hx, fun _ => by omega⟩
    · rename_i hx; exact ⟨fun h => by omega, fun h => absurd h hx⟩
  have habs' : |(M - 2 ^ 23 : ℤ)| < 2 ^ 24 := by rw [abs_of_nonneg (by omega)]; omega
  have e1 : rnd ((|m| - 1 : Int) : ℚ) = ((M - 2 ^ 23 : ℤ) : ℚ) * 2 ^ (8 : ℤ) := by
    have : ((|m| - 1 : Int) : ℚ) = ((M - 2 ^ 23 : ℤ) : ℚ) * 2 ^ (8 : ℤ) := by
      rw [hmabs]; push_cast; norm_num
    rw [this]; exact rnd_exact _ _ habs' (by norm_num)
  have e2 : rnd (((M - 2 ^ 23 : ℤ) : ℚ) * 2 ^ (8 : ℤ) / 4294967296) = ((M - 2 ^ 23 : ℤ) : ℚ) * 2 ^ (-24 : ℤ) := by
    have : ((M - 2 ^ 23 : ℤ) : ℚ) * 2 ^ (8 : ℤ) / 4294967296 = ((M - 2 ^ 23 : ℤ) : ℚ) * 2 ^ (-24 : ℤ) := by
      norm_num; ring
    rw [this]; exact rnd_exact _ _ habs' (by norm_num)
  have e3 : rnd (((M - 2 ^ 23 : ℤ) : ℚ) * 2 ^ (-24 : ℤ) + 1 / 2) = (M : ℚ) * 2 ^ (-24 : ℤ) := by
    have : ((M - 2 ^ 23 : ℤ) : ℚ) * 2 ^ (-24 : ℤ) + 1 / 2 = (M : ℚ) * 2 ^ (-24 : ℤ) := by
      push_cast; norm_num; ring
    rw [this]; exact rnd_exact _ _ (by rw [abs_of_nonneg (by omega)]; omega) (by norm_num)
  have e4 : (M : ℚ) * 2 ^ (-24 : ℤ) * 2 ^ (L + 1) = |x| := by
    rw [hM, mul_assoc, ← zpow_add₀ h2']
    congr 2
    ring
  have hxa : IsF32 |x| := by
    rcases abs_choice x with h | h <;> rw [h]
    · exact hx
    · exact isF32_neg hx
  simp only [floatJoin, if_neg hm0, if_neg hmm, rnd_twice_max, e1, e2, e3, e4, toFlt_isF32 hxa]
  by_cases hneg : x < 0
  · rw [if_pos (hmneg.mpr hneg)]
    simp [negF, abs_of_neg hneg]
  · rw [if_neg (fun h => hneg (hmneg.mp h)), abs_of_nonneg (not_lt.mp hneg)]

/-- The numbers sent for a finite float are in range and the receiver recovers the float from them. -/
theorem float_parts_join {x : ℚ} (hx : IsF32 x) : ∃ m e : Int, floatParts x = .ok (m, e) ∧
    -2147483648 ≤ m ∧ m ≤ 2147483647 ∧ -2147483648 ≤ e ∧ e ≤ 2147483647 ∧ floatJoin m e = .ok (.fin x) := by
  by_cases h0 : x = 0
  · refine ⟨0, 0, ?_, by omega, by omega, by omega, by omega, ?_⟩
    · have : rnd (-1 / 2) = -1 / 2 := by
        have := rnd_exact (-1) (-1) (by norm_num) (by norm_num)
        norm_num at this ⊢
        exact this
      have hfr : frexp x = (0, 0) := by simp [frexp, h0]
      have he : rnd (|(0 : ℚ)| - 1 / 2) = -1 / 2 := by
        rw [abs_zero, zero_sub]
        have e : (-(1 / 2) : ℚ) = -1 / 2 := by ring
        rw [e, this]
      simp only [floatParts, hfr, he, if_pos (show (-1 / 2 : ℚ) < 0 by norm_num), Res.pure_eq]
    · simp [floatJoin, h0]
  · obtain ⟨M, h1, h2, hM, hL1, hL2⟩ := signif hx h0
    refine ⟨_, _, floatParts_spec h0 h1 h2 hM, ?_, ?_, by omega, by omega, floatJoin_spec hx h0 h1 h2 hM⟩
    · split <;> omega
    · split <;> omega

theorem deserFloat_ser {x : ℚ} (hx : IsF32 x) (pre post : Bytes) : ∃ bs, serFloat .little (.fin x) = .ok bs ∧
    bs.length = 8 ∧
    deserFloat .little (pre ++ bs ++ post) pre.length = .ok (some (.fin x, pre.length + 8)) := by
  obtain ⟨m, e, hp, m1, m2, e1, e2, hj⟩ := float_parts_join hx
  refine ⟨ser32 .little (u32OfInt m) ++ ser32 .little (u32OfInt e), ?_, ?_, ?_⟩
  · simp [serFloat, hp]
  · simp [ser32_length]
  · have hl : ∀ d, (ser32 .little d).length = 4 := fun d => ser32_length _ _
    have hlen : ¬ (pre.length + 8 > (pre ++ (ser32 .little (u32OfInt m) ++ ser32 .little (u32OfInt e)) ++ post).length) := by
      simp only [List.length_append, hl]; omega
    have d1 := deser32_ser (u32OfInt m) (u32OfInt_lt m) pre (ser32 .little (u32OfInt e) ++ post)
    have d2 := deser32_ser (u32OfInt e) (u32OfInt_lt e) (pre ++ ser32 .little (u32OfInt m)) post
    simp only [List.append_assoc, List.length_append, hl] at d1 d2 hlen ⊢
    simp only [deserFloat, List.length_append, hl, if_neg hlen, d1, d2, Res.ok_bind, intOfU32_u32OfInt m m1 m2, intOfU32_u32OfInt e e1 e2, hj,
      Res.pure_eq]

end Buzz.Msg
