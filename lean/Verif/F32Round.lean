import Verif.F32

/-
Rounding to floats respects the order with respect to float values.
-/
namespace Buzz.F32

/-- A number with 24 significant bits and a large enough exponent, with no upper bound. -/
def Grid (y : ℚ) : Prop := ∃ n k : ℤ, |n| < 2 ^ 24 ∧ -149 ≤ k ∧ y = n * 2 ^ k

theorem IsF32.grid {x : ℚ} (h : IsF32 x) : Grid x := by
  obtain ⟨n, k, h1, h2, _, h4⟩ := h
  exact ⟨n, k, h1, h2, h4⟩

theorem Grid.neg {x : ℚ} (h : Grid x) : Grid (-x) := by
  obtain ⟨n, k, h1, h2, rfl⟩ := h
  exact ⟨-n, k, by rwa [abs_neg], h2, by push_cast; ring⟩

theorem grid_zero : Grid 0 := ⟨0, 0, by norm_num, by norm_num, by norm_num⟩

theorem rnd_zero : rnd 0 = 0 := by unfold rnd; rw [if_pos rfl]

theorem roundEven_neg (y : ℚ) : roundEven (-y) = -roundEven y := by
  unfold roundEven
  simp only [Int.floor_neg]
  have hf := Int.floor_le y
  have hl := Int.lt_floor_add_one y
  rcases eq_or_ne (⌊y⌋ : ℚ) y with h | h
  · have hc : ⌈y⌉ = ⌊y⌋ := by
      rw [Int.ceil_eq_iff]
      constructor <;> linarith
    rw [hc]
    push_cast
    rw [if_pos (by linarith), if_pos (by linarith)]
  · have hlt : (⌊y⌋ : ℚ) < y := lt_of_le_of_ne hf h
    have hc : ⌈y⌉ = ⌊y⌋ + 1 := by
      rw [Int.ceil_eq_iff]
      push_cast
      constructor <;> linarith
    rw [hc]
    push_cast
    rcases lt_trichotomy (y - ⌊y⌋) (1 / 2) with g | g | g
    · rw [if_neg (by linarith), if_pos (by linarith), if_pos g]; ring
    · have e1 : -y - -((⌊y⌋ : ℚ) + 1) = 1 / 2 := by linarith
      rw [e1, g]
      simp only [lt_irrefl, if_false]
      split <;> split <;> omega
    · rw [if_pos (by linarith), if_neg (by linarith), if_pos (by linarith)]

theorem rnd_neg (x : ℚ) : rnd (-x) = -rnd x := by
  unfold rnd
  have hu : ulpExp (-x) = ulpExp x := by unfold ulpExp; rw [abs_neg]
  by_cases h : x = 0
  · rw [if_pos h, if_pos (by rw [h]; norm_num)]; norm_num
  · rw [if_neg h, if_neg (by simpa using h), hu, neg_div, roundEven_neg]
    push_cast
    ring

theorem roundEven_le {y : ℚ} {m : ℤ} (h : y ≤ m) : roundEven y ≤ m := by
  unfold roundEven
  have hf := Int.floor_le y
  have hl := Int.lt_floor_add_one y
  have hfm : ⌊y⌋ ≤ m := by
    have : (⌊y⌋ : ℚ) ≤ m := le_trans hf h
    exact_mod_cast this
  have up : (⌊y⌋ : ℚ) < y → ⌊y⌋ + 1 ≤ m := by
    intro k
    have : (⌊y⌋ : ℚ) < m := lt_of_lt_of_le k h
    have : ⌊y⌋ < m := by exact_mod_cast this
    omega
  simp only
  split
  · exact hfm
  · rename_i h1
    split
    · exact up (by linarith)
    · split
      · exact hfm
      · exact up (by linarith)

theorem le_roundEven {y : ℚ} {m : ℤ} (h : (m : ℚ) ≤ y) : m ≤ roundEven y := by
  have := roundEven_le (y := -y) (m := -m) (by push_cast; linarith)
  rw [roundEven_neg] at this
  omega

/-- A float is a multiple of the unit in the last place of every number not larger. -/
theorem grid_multiple {x y : ℚ} (h0 : 0 < x) (hxy : x ≤ y) (hy : Grid y) : ∃ m : ℤ, y = m * 2 ^ ulpExp x := by
  obtain ⟨n, k, hn, hk, rfl⟩ := hy
  have hy0 : (0 : ℚ) < n * 2 ^ k := lt_of_lt_of_le h0 hxy
  have hle : ulpExp x ≤ k := by
    unfold ulpExp
    apply max_le
    · have hlt : |x| < ((2 : ℕ) : ℚ) ^ (24 + k) := by
        rw [abs_of_pos h0]
        refine lt_of_le_of_lt hxy ?_
        push_cast
        rw [zpow_add₀ (by norm_num : (2 : ℚ) ≠ 0)]
        apply mul_lt_mul_of_pos_right _ (two_zpow_pos k)
        have h2 : n < 2 ^ 24 := lt_of_le_of_lt (le_abs_self n) hn
        have : (n : ℚ) < ((2 ^ 24 : ℤ) : ℚ) := by exact_mod_cast h2
        norm_num at this ⊢
        exact this
      have := (Int.lt_zpow_iff_log_lt (b := 2) (by norm_num) (abs_pos.mpr h0.ne')).mp hlt
      omega
    · exact hk
  refine ⟨n * 2 ^ (k - ulpExp x).toNat, ?_⟩
  push_cast
  have hp : (2 : ℚ) ^ (k - ulpExp x).toNat = 2 ^ (k - ulpExp x) := by
    rw [← zpow_natCast, Int.toNat_of_nonneg (by omega)]
  rw [hp, mul_assoc, ← zpow_add₀ (by norm_num : (2 : ℚ) ≠ 0), sub_add_cancel]

theorem rnd_le_pos {x y : ℚ} (h0 : 0 < x) (hxy : x ≤ y) (hy : Grid y) : rnd x ≤ y := by
  obtain ⟨m, hm⟩ := grid_multiple h0 hxy hy
  unfold rnd
  rw [if_neg h0.ne']
  have hp := two_zpow_pos (ulpExp x)
  rw [hm]
  refine mul_le_mul_of_nonneg_right ?_ hp.le
  have : roundEven (x / 2 ^ ulpExp x) ≤ m := roundEven_le (by rw [div_le_iff₀ hp, ← hm]; exact hxy)
  exact_mod_cast this

theorem rnd_nonneg {x : ℚ} (h0 : 0 ≤ x) : 0 ≤ rnd x := by
  unfold rnd
  split
  · exact le_refl _
  · have hp := two_zpow_pos (ulpExp x)
    refine mul_nonneg ?_ hp.le
    have : (0 : ℤ) ≤ roundEven (x / 2 ^ ulpExp x) := le_roundEven (by push_cast; positivity)
    exact_mod_cast this

theorem le_rnd_pos {x y : ℚ} (h0 : 0 < y) (hxy : y ≤ x) (hy : Grid y) : y ≤ rnd x := by
  have hx0 : 0 < x := lt_of_lt_of_le h0 hxy
  have hp := two_zpow_pos (ulpExp x)
  have key : ∀ m : ℤ, y ≤ m * 2 ^ ulpExp x → (m : ℚ) * 2 ^ ulpExp x ≤ x → y ≤ rnd x := by
    intro m h1 h2
    refine le_trans h1 ?_
    unfold rnd
    rw [if_neg hx0.ne']
    refine mul_le_mul_of_nonneg_right ?_ hp.le
    have : m ≤ roundEven (x / 2 ^ ulpExp x) := le_roundEven (by rw [le_div_iff₀ hp]; exact h2)
    exact_mod_cast this
  -- the largest power of two below x
  have hlog : ((2 : ℕ) : ℚ) ^ Int.log 2 |x| ≤ |x| := Int.zpow_log_le_self (by norm_num) (abs_pos.mpr hx0.ne')
  rw [abs_of_pos hx0] at hlog
  by_cases c : y ≤ ((2 : ℕ) : ℚ) ^ Int.log 2 x ∧ ulpExp x = Int.log 2 x - 23
  · have hpow : ((2 : ℕ) : ℚ) ^ Int.log 2 x = ((2 ^ 23 : ℤ) : ℚ) * 2 ^ ulpExp x := by
      rw [c.2]
      have : ((2 ^ 23 : ℤ) : ℚ) = 2 ^ (23 : ℤ) := by norm_num
      rw [this, ← zpow_add₀ (by norm_num : (2 : ℚ) ≠ 0)]
      push_cast
      congr 1; ring
    refine key (2 ^ 23) ?_ ?_
    · rw [← hpow]; exact c.1
    · rw [← hpow]; exact hlog
  · -- otherwise y is a multiple of the same unit
    obtain ⟨m, hm⟩ : ∃ m : ℤ, y = m * 2 ^ ulpExp x := by
      by_cases e : ulpExp x = Int.log 2 x - 23
      · have hlt : ((2 : ℕ) : ℚ) ^ Int.log 2 x < y := not_le.mp fun h => c ⟨h, e⟩
        have hl : Int.log 2 y = Int.log 2 x := by
          refine le_antisymm (Int.log_mono_right h0 hxy) ?_
          have := (Int.zpow_le_iff_le_log (b := 2) (by norm_num) h0).mp hlt.le
          exact this
        have hu : ulpExp y = ulpExp x := by unfold ulpExp; rw [abs_of_pos h0, abs_of_pos hx0, hl]
        obtain ⟨m, hm⟩ := grid_multiple h0 (le_refl y) hy
        exact ⟨m, by rw [← hu]; exact hm⟩
      · have hu : ulpExp x = -149 := by
          unfold ulpExp at e ⊢
          rw [abs_of_pos hx0] at e ⊢
          rcases max_choice (Int.log 2 x - 23) (-149) with h | h
          · exact absurd h e
          · exact h
        obtain ⟨n, k, hn, hk, rfl⟩ := hy
        refine ⟨n * 2 ^ (k + 149).toNat, ?_⟩
        rw [hu]
        push_cast
        have hp : (2 : ℚ) ^ (k + 149).toNat = 2 ^ (k + 149) := by
          rw [← zpow_natCast, Int.toNat_of_nonneg (by omega)]
        rw [hp, mul_assoc, ← zpow_add₀ (by norm_num : (2 : ℚ) ≠ 0)]
        congr 2; ring
    exact key m (le_of_eq hm) (by rw [← hm]; exact hxy)

/-- Rounding never passes a float from below. -/
theorem rnd_le {x y : ℚ} (hxy : x ≤ y) (hy : Grid y) : rnd x ≤ y := by
  rcases lt_trichotomy x 0 with h | h | h
  · rcases lt_or_ge y 0 with g | g
    · have := le_rnd_pos (x := -x) (y := -y) (by linarith) (by linarith) hy.neg
      rw [rnd_neg] at this
      linarith
    · have := rnd_nonneg (x := -x) (by linarith)
      rw [rnd_neg] at this
      linarith
  · rw [h, rnd_zero]; linarith
  · exact rnd_le_pos h hxy hy

/-- Rounding never passes a float from above. -/
theorem le_rnd {x y : ℚ} (hxy : y ≤ x) (hy : Grid y) : y ≤ rnd x := by
  have := rnd_le (x := -x) (y := -y) (by linarith) hy.neg
  rw [rnd_neg] at this
  linarith

end Buzz.F32
