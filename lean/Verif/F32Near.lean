import Verif.F32
import Mathlib.Tactic.Zify

/-
`Verif.F32.rnd` and `toFlt` round to the nearest float, ties to even, with overflow to infinity at the half-way
point above the largest float.  The remainder of two floats is a float.
-/
namespace Buzz.F32

theorem roundEven_near (z : ℚ) : |(roundEven z : ℚ) - z| ≤ 1 / 2 := by
  have h1 := Int.floor_le z
  have h2 := Int.lt_floor_add_one z
  unfold roundEven
  simp only
  split
  · rw [abs_le]; constructor <;> linarith
  · split
    · push_cast; rw [abs_le]; constructor <;> linarith
    · split
      · rw [abs_le]; constructor <;> linarith
      · push_cast; rw [abs_le]; constructor <;> linarith

/-- No integer is closer. -/
theorem roundEven_best (z : ℚ) (j : ℤ) : |(roundEven z : ℚ) - z| ≤ |(j : ℚ) - z| := by
  by_cases h : j = roundEven z
  · rw [h]
  · have h1 : (1 : ℚ) ≤ |(j : ℚ) - roundEven z| := by
      have : (1 : ℤ) ≤ |j - roundEven z| := Int.one_le_abs (sub_ne_zero.mpr h)
      exact_mod_cast this
    have h2 : |(j : ℚ) - roundEven z| ≤ |(j : ℚ) - z| + |(roundEven z : ℚ) - z| := by
      have := abs_sub_le (j : ℚ) z (roundEven z)
      rwa [abs_sub_comm z] at this
    have h3 := roundEven_near z
    linarith

/-- If another integer is as close, the result is even. -/
theorem roundEven_tie (z : ℚ) (j : ℤ) (h : j ≠ roundEven z) (e : |(j : ℚ) - z| = |(roundEven z : ℚ) - z|) : Even (roundEven z) := by
  have h3 := roundEven_near z
  have h1 : (1 : ℚ) ≤ |(j : ℚ) - roundEven z| := by
    have : (1 : ℤ) ≤ |j - roundEven z| := Int.one_le_abs (sub_ne_zero.mpr h)
    exact_mod_cast this
  have h2 : |(j : ℚ) - roundEven z| ≤ |(j : ℚ) - z| + |(roundEven z : ℚ) - z| := by
    have := abs_sub_le (j : ℚ) z (roundEven z)
    rwa [abs_sub_comm z] at this
  have h4 : |(roundEven z : ℚ) - z| = 1 / 2 := by linarith
  have f1 := Int.floor_le z
  have f2 := Int.lt_floor_add_one z
  revert h4
  unfold roundEven
  simp only
  split
  · intro h4
    exfalso
    rw [abs_eq (by norm_num)] at h4
    rcases h4 with h4 | h4 <;> linarith
  · split
    · intro h4
      exfalso
      push_cast at h4
      rw [abs_eq (by norm_num)] at h4
      rcases h4 with h4 | h4 <;> linarith
    · intro _
      split
      · rename_i hh; exact Int.even_iff.mpr hh
      · rename_i hh
        rw [Int.even_iff]; omega

theorem roundEven_mono_int {z : ℚ} {j : ℤ} (h : (j : ℚ) ≤ z) : j ≤ roundEven z := by
  have h1 : j ≤ ⌊z⌋ := Int.le_floor.mpr h
  unfold roundEven
  simp only
  split
  · exact h1
  · split
    · omega
    · split <;> omega

theorem roundEven_neg_int {z : ℚ} {j : ℤ} (h : z ≤ (j : ℚ)) : roundEven z ≤ j := by
  have h1 := Int.floor_le z
  have h2 : ⌊z⌋ ≤ j := by exact_mod_cast h1.trans h
  by_cases e : ⌊z⌋ = j
  · have hz : z = j := le_antisymm h (by rw [← e]; exact h1)
    rw [hz, roundEven_int]
  · unfold roundEven
    simp only
    split
    · exact h2
    · split
      · omega
      · split <;> omega

theorem abs_roundEven_ge {z : ℚ} {j : ℤ} (h : (j : ℚ) ≤ |z|) : j ≤ |roundEven z| := by
  rcases le_total 0 z with hz | hz
  · rw [abs_of_nonneg hz] at h
    exact (roundEven_mono_int h).trans (le_abs_self _)
  · rw [abs_of_nonpos hz] at h
    have : roundEven z ≤ -j := roundEven_neg_int (by push_cast; linarith)
    exact (by omega : j ≤ -roundEven z).trans (neg_le_abs _)

theorem abs_roundEven_le {z : ℚ} {j : ℤ} (h : |z| ≤ (j : ℚ)) : |roundEven z| ≤ j := by
  rw [abs_le] at h ⊢
  exact ⟨roundEven_mono_int (by push_cast; linarith), roundEven_neg_int h.2⟩

/-- The scale of a non-zero number: its magnitude in units of the last place. -/
theorem scale {x : ℚ} (h0 : x ≠ 0) : (ulpExp x = -149 ∨ (2 : ℚ) ^ (23 : ℤ) ≤ |x / 2 ^ ulpExp x|) ∧ |x / 2 ^ ulpExp x| < 2 ^ (24 : ℤ) ∧ -149 ≤ ulpExp x := by
  have hx : 0 < |x| := abs_pos.mpr h0
  have e1 : |x / 2 ^ ulpExp x| = |x| / 2 ^ ulpExp x := by rw [abs_div, abs_of_pos (two_zpow_pos _)]
  have l1 : ((2 : ℕ) : ℚ) ^ Int.log 2 |x| ≤ |x| := Int.zpow_log_le_self (by norm_num) hx
  have l2 : |x| < ((2 : ℕ) : ℚ) ^ (Int.log 2 |x| + 1) := Int.lt_zpow_succ_log_self (by norm_num) |x|
  push_cast at l1 l2
  refine ⟨?_, ?_, le_max_right _ _⟩
  · by_cases h : Int.log 2 |x| - 23 ≤ -149
    · exact .inl (max_eq_right h)
    · right
      have e2 : ulpExp x = Int.log 2 |x| - 23 := max_eq_left (by omega)
      rw [e1, le_div_iff₀ (two_zpow_pos _), ← zpow_add₀ (by norm_num), e2]
      exact le_trans (le_of_eq (by congr 1; omega)) l1
  · rw [e1, div_lt_iff₀ (two_zpow_pos _), ← zpow_add₀ (by norm_num)]
    refine lt_of_lt_of_le l2 (zpow_le_zpow_right₀ (by norm_num) ?_)
    have : Int.log 2 |x| - 23 ≤ ulpExp x := le_max_left _ _
    omega

theorem rnd_scaled {x : ℚ} (h0 : x ≠ 0) : rnd x = roundEven (x / 2 ^ ulpExp x) * 2 ^ ulpExp x := if_neg h0

theorem dist_scaled {x : ℚ} (e : ℤ) (j : ℚ) : |j * 2 ^ e - x| = |j - x / 2 ^ e| * 2 ^ e := by
  have hp := two_zpow_pos e
  have e1 : j * 2 ^ e - x = (j - x / 2 ^ e) * 2 ^ e := by rw [sub_mul, div_mul_cancel₀ _ hp.ne']
  rw [e1, abs_mul, abs_of_pos hp]

/-- A number of the format is a multiple of the last place of `x`, or it is strictly farther from `x` than the power of two below `x`. -/
theorem multiple_or {x : ℚ} (h0 : x ≠ 0) {n k : ℤ} (hn : |n| < 2 ^ 24) (hk : -149 ≤ k) :
    (∃ j : ℤ, (n : ℚ) * 2 ^ k = j * 2 ^ ulpExp x) ∨ ∃ j : ℤ, |(j : ℚ) * 2 ^ ulpExp x - x| < |(n : ℚ) * 2 ^ k - x| := by
  obtain ⟨s1, s2, s3⟩ := scale h0
  by_cases hke : ulpExp x ≤ k
  · left
    refine ⟨n * 2 ^ (k - ulpExp x).toNat, ?_⟩
    push_cast
    have hp : (2 : ℚ) ^ (k - ulpExp x).toNat = 2 ^ (k - ulpExp x) := by
      rw [← zpow_natCast, Int.toNat_of_nonneg (by omega)]
    rw [hp, mul_assoc, ← zpow_add₀ (by norm_num)]
    congr 2
    omega
  · right
    have s1 : (2 : ℚ) ^ (23 : ℤ) ≤ |x / 2 ^ ulpExp x| := by
      rcases s1 with s1 | s1
      · omega
      · exact s1
    have hp := two_zpow_pos (ulpExp x)
    have hb : (2 : ℚ) ^ (23 : ℤ) * 2 ^ ulpExp x ≤ |x| := by
      rw [abs_div, abs_of_pos hp, le_div_iff₀ hp] at s1
      exact s1
    have hy : |(n : ℚ) * 2 ^ k| < 2 ^ (23 : ℤ) * 2 ^ ulpExp x := by
      rw [abs_mul, abs_of_pos (two_zpow_pos k), ← Int.cast_abs]
      have h4 : ((|n| : ℤ) : ℚ) < 2 ^ (24 : ℤ) := by
        have : ((|n| : ℤ) : ℚ) < ((2 ^ 24 : ℤ) : ℚ) := by exact_mod_cast hn
        norm_num at this ⊢
        exact this
      calc ((|n| : ℤ) : ℚ) * 2 ^ k < 2 ^ (24 : ℤ) * 2 ^ k := mul_lt_mul_of_pos_right h4 (two_zpow_pos k)
        _ = 2 ^ (23 : ℤ) * 2 ^ (k + 1) := by rw [← zpow_add₀ (by norm_num), ← zpow_add₀ (by norm_num)]; congr 1; omega
        _ ≤ _ := mul_le_mul_of_nonneg_left (zpow_le_zpow_right₀ (by norm_num) (by omega)) (by positivity)
    rw [abs_lt] at hy
    rcases le_total 0 x with hx | hx
    · refine ⟨2 ^ 23, ?_⟩
      rw [abs_of_nonneg hx] at hb
      push_cast
      have e : (8388608 : ℚ) = 2 ^ (23 : ℤ) := by norm_num
      rw [e, abs_of_nonpos (by linarith), abs_of_nonpos (by linarith)]
      linarith
    · refine ⟨-2 ^ 23, ?_⟩
      rw [abs_of_nonpos hx] at hb
      push_cast
      have e : (8388608 : ℚ) = 2 ^ (23 : ℤ) := by norm_num
      rw [e, abs_of_nonneg (by linarith), abs_of_nonneg (by linarith)]
      linarith

/-- Rounding gives a nearest number of the format. -/
theorem rnd_nearest (x : ℚ) {n k : ℤ} (hn : |n| < 2 ^ 24) (hk : -149 ≤ k) : |rnd x - x| ≤ |(n : ℚ) * 2 ^ k - x| := by
  by_cases h0 : x = 0
  · subst h0
    rw [show rnd 0 = 0 from if_pos rfl, sub_zero, abs_zero]
    exact abs_nonneg _
  · have key : ∀ j : ℤ, |rnd x - x| ≤ |(j : ℚ) * 2 ^ ulpExp x - x| := fun j => by
      rw [rnd_scaled h0, dist_scaled, dist_scaled]
      exact mul_le_mul_of_nonneg_right (roundEven_best _ j) (two_zpow_pos _).le
    rcases multiple_or h0 hn hk with ⟨j, e⟩ | ⟨j, e⟩
    · rw [e]; exact key j
    · exact (key j).trans e.le

/-- On a tie the last digit of the result is even. -/
theorem rnd_tie (x : ℚ) {n k : ℤ} (hn : |n| < 2 ^ 24) (hk : -149 ≤ k) (hne : (n : ℚ) * 2 ^ k ≠ rnd x)
    (ht : |(n : ℚ) * 2 ^ k - x| = |rnd x - x|) :
    ∃ m e : ℤ, rnd x = m * 2 ^ e ∧ Even m ∧ |m| ≤ 2 ^ 24 ∧ -149 ≤ e ∧ (e = -149 ∨ 2 ^ 23 ≤ |m|) := by
  by_cases h0 : x = 0
  · subst h0
    simp [rnd] at ht hne
    exact absurd ht (by simpa using hne)
  · have key : ∀ j : ℤ, |rnd x - x| ≤ |(j : ℚ) * 2 ^ ulpExp x - x| := fun j => by
      rw [rnd_scaled h0, dist_scaled, dist_scaled]
      exact mul_le_mul_of_nonneg_right (roundEven_best _ j) (two_zpow_pos _).le
    obtain ⟨s1, s2, s3⟩ := scale h0
    rcases multiple_or h0 hn hk with ⟨j, e⟩ | ⟨j, e⟩
    · refine ⟨roundEven (x / 2 ^ ulpExp x), ulpExp x, rnd_scaled h0, ?_, ?_, s3, ?_⟩
      · rw [e] at hne ht
        rw [rnd_scaled h0] at hne ht
        rw [dist_scaled, dist_scaled] at ht
        refine roundEven_tie _ j (fun hj => hne (by rw [hj])) (mul_right_cancel₀ (two_zpow_pos _).ne' ht)
      · exact abs_roundEven_le (le_of_lt (by push_cast; exact_mod_cast s2))
      · refine s1.imp id fun h => abs_roundEven_ge ?_
        push_cast
        exact_mod_cast h
    · have := key j
      rw [ht] at e
      linarith

/-- What rounding gives is a number of the format, unless it is too large. -/
theorem rnd_format {x : ℚ} (h : |rnd x| < 2 ^ (128 : ℤ)) : IsF32 (rnd x) := by
  by_cases h0 : x = 0
  · subst h0
    exact ⟨0, 0, by norm_num, by norm_num, by norm_num, by simp [rnd]⟩
  · obtain ⟨s1, s2, s3⟩ := scale h0
    have hm : |roundEven (x / 2 ^ ulpExp x)| ≤ 2 ^ 24 := abs_roundEven_le (le_of_lt (by push_cast; exact_mod_cast s2))
    have hr := rnd_scaled h0
    set m := roundEven (x / 2 ^ ulpExp x) with hmd
    have hp := two_zpow_pos (ulpExp x)
    have ha : |rnd x| = ((|m| : ℤ) : ℚ) * 2 ^ ulpExp x := by rw [hr, abs_mul, abs_of_pos hp, Int.cast_abs]
    rcases s1 with s1 | s1
    · by_cases hlt : |m| < 2 ^ 24
      · exact ⟨m, ulpExp x, hlt, s3, by omega, hr⟩
      · have hm' : |m| = 2 ^ 24 := le_antisymm hm (not_lt.mp hlt)
        rcases (abs_eq (by norm_num)).mp hm' with e | e
        · exact ⟨2 ^ 23, ulpExp x + 1, by norm_num, by omega, by omega, by
            rw [hr, e, zpow_add₀ (by norm_num)]; push_cast; ring⟩
        · exact ⟨-2 ^ 23, ulpExp x + 1, by norm_num, by omega, by omega, by
            rw [hr, e, zpow_add₀ (by norm_num)]; push_cast; ring⟩
    · have hge : 2 ^ 23 ≤ |m| := abs_roundEven_ge (by push_cast; exact_mod_cast s1)
      have top : ulpExp x ≤ 104 ∧ (|m| = 2 ^ 24 → ulpExp x + 1 ≤ 104) := by
        have key : ∀ j : ℤ, (2 : ℚ) ^ j ≤ ((|m| : ℤ) : ℚ) → j + ulpExp x < 128 := fun j hj => by
          have h5 : (2 : ℚ) ^ (j + ulpExp x) < 2 ^ (128 : ℤ) := by
            rw [zpow_add₀ (by norm_num)]
            exact lt_of_le_of_lt (mul_le_mul_of_nonneg_right hj hp.le) (ha ▸ h)
          exact (zpow_lt_zpow_iff_right₀ (by norm_num)).mp h5
        constructor
        · have : (2 : ℚ) ^ (23 : ℤ) ≤ ((|m| : ℤ) : ℚ) := by
            have : ((2 ^ 23 : ℤ) : ℚ) ≤ ((|m| : ℤ) : ℚ) := by exact_mod_cast hge
            norm_num at this ⊢; exact this
          have := key 23 this
          omega
        · intro e
          have : (2 : ℚ) ^ (24 : ℤ) ≤ ((|m| : ℤ) : ℚ) := by
            rw [e]; norm_num
          have := key 24 this
          omega
      by_cases hlt : |m| < 2 ^ 24
      · exact ⟨m, ulpExp x, hlt, s3, top.1, hr⟩
      · have hm' : |m| = 2 ^ 24 := le_antisymm hm (not_lt.mp hlt)
        have t2 := top.2 hm'
        rcases (abs_eq (by norm_num)).mp hm' with e | e
        · exact ⟨2 ^ 23, ulpExp x + 1, by norm_num, by omega, t2, by
            rw [hr, e, zpow_add₀ (by norm_num)]; push_cast; ring⟩
        · exact ⟨-2 ^ 23, ulpExp x + 1, by norm_num, by omega, t2, by
            rw [hr, e, zpow_add₀ (by norm_num)]; push_cast; ring⟩

/-- Overflow happens from the point half a unit above the largest float. -/
theorem rnd_overflow (x : ℚ) : 2 ^ (128 : ℤ) ≤ |rnd x| ↔ 2 ^ (128 : ℤ) - 2 ^ (103 : ℤ) ≤ |x| := by
  have hF : ((2 ^ 24 - 1 : ℤ) : ℚ) * 2 ^ (104 : ℤ) = 2 ^ (128 : ℤ) - 2 ^ (104 : ℤ) := by norm_num
  have h34 : (2 : ℚ) ^ (104 : ℤ) = 2 * 2 ^ (103 : ℤ) := by norm_num
  have hbig : (2 : ℚ) ^ (104 : ℤ) < 2 ^ (128 : ℤ) := by norm_num
  have hpos := two_zpow_pos 103
  constructor
  · intro h
    by_contra hc
    rw [not_le] at hc
    have p := rnd_nearest x (n := 2 ^ 24 - 1) (k := 104) (by norm_num) (by norm_num)
    have q := rnd_nearest x (n := -(2 ^ 24 - 1)) (k := 104) (by norm_num) (by norm_num)
    have hF' : ((-(2 ^ 24 - 1) : ℤ) : ℚ) * 2 ^ (104 : ℤ) = -(2 ^ (128 : ℤ) - 2 ^ (104 : ℤ)) := by norm_num
    rw [hF] at p
    rw [hF'] at q
    obtain ⟨c1, c2⟩ := abs_lt.mp hc
    rcases le_abs.mp h with h | h
    · rw [abs_of_nonneg (by linarith)] at p
      rcases abs_cases ((2 : ℚ) ^ (128 : ℤ) - 2 ^ (104 : ℤ) - x) with ⟨e, _⟩ | ⟨e, _⟩ <;> rw [e] at p <;> linarith
    · rw [abs_of_nonpos (by linarith)] at q
      rcases abs_cases (-((2 : ℚ) ^ (128 : ℤ) - 2 ^ (104 : ℤ)) - x) with ⟨e, _⟩ | ⟨e, _⟩ <;> rw [e] at q <;> linarith
  · intro h
    have h0 : x ≠ 0 := by
      rintro rfl
      norm_num at h
    have hp := two_zpow_pos (ulpExp x)
    have hL : (127 : ℤ) ≤ Int.log 2 |x| := by
      refine (Int.zpow_le_iff_le_log (b := 2) (by norm_num) (abs_pos.mpr h0)).mp ?_
      refine le_trans ?_ h
      norm_num
    have hu : ulpExp x = Int.log 2 |x| - 23 := max_eq_left (by omega)
    rw [rnd_scaled h0, abs_mul, abs_of_pos hp, ← Int.cast_abs]
    have e1 : |x / 2 ^ ulpExp x| = |x| / 2 ^ ulpExp x := by rw [abs_div, abs_of_pos hp]
    by_cases hl : Int.log 2 |x| = 127
    · have hu' : ulpExp x = 104 := by omega
      rw [hu'] at e1 ⊢
      have hz : (2 : ℚ) ^ 24 - 1 / 2 ≤ |x / 2 ^ (104 : ℤ)| := by
        rw [e1, le_div_iff₀ (two_zpow_pos _)]
        refine le_trans (le_of_eq ?_) h
        norm_num
      have hm : (2 : ℤ) ^ 24 ≤ |roundEven (x / 2 ^ (104 : ℤ))| := by
        have hn := roundEven_near (x / 2 ^ (104 : ℤ))
        have hlow : (2 : ℤ) ^ 24 - 1 ≤ |roundEven (x / 2 ^ (104 : ℤ))| := abs_roundEven_ge (by push_cast; linarith)
        by_contra hc
        have he : |roundEven (x / 2 ^ (104 : ℤ))| = 2 ^ 24 - 1 := by omega
        set z := x / 2 ^ (104 : ℤ) with hzd
        rcases (abs_eq (by norm_num)).mp he with e | e
        · have hz0 : 0 ≤ z := by
            rw [e] at hn; push_cast at hn
            have := abs_le.mp hn
            linarith
          rw [abs_of_nonneg hz0] at hz
          have ht : |((2 ^ 24 : ℤ) : ℚ) - z| = |(roundEven z : ℚ) - z| := by
            rw [e] at hn ⊢
            push_cast at hn ⊢
            have hn := abs_le.mp hn
            rw [abs_of_nonneg (by linarith), abs_of_nonpos (by linarith)]
            linarith
          have := roundEven_tie z (2 ^ 24) (by rw [e]; norm_num) ht
          rw [e] at this
          exact absurd this (by decide)
        · have hz0 : z ≤ 0 := by
            rw [e] at hn; push_cast at hn
            have := abs_le.mp hn
            linarith
          rw [abs_of_nonpos hz0] at hz
          have ht : |((-2 ^ 24 : ℤ) : ℚ) - z| = |(roundEven z : ℚ) - z| := by
            rw [e] at hn ⊢
            push_cast at hn ⊢
            have hn := abs_le.mp hn
            rw [abs_of_nonpos (by linarith), abs_of_nonneg (by linarith)]
            linarith
          have := roundEven_tie z (-2 ^ 24) (by rw [e]; norm_num) ht
          rw [e] at this
          exact absurd this (by decide)
      have : ((2 ^ 24 : ℤ) : ℚ) ≤ ((|roundEven (x / 2 ^ (104 : ℤ))| : ℤ) : ℚ) := by exact_mod_cast hm
      refine le_trans (le_of_eq ?_) (mul_le_mul_of_nonneg_right this (two_zpow_pos 104).le)
      norm_num
    · obtain ⟨s1, s2, s3⟩ := scale h0
      have s1 : (2 : ℚ) ^ (23 : ℤ) ≤ |x / 2 ^ ulpExp x| := by
        rcases s1 with s1 | s1
        · omega
        · exact s1
      have hge : 2 ^ 23 ≤ |roundEven (x / 2 ^ ulpExp x)| := abs_roundEven_ge (by push_cast; exact_mod_cast s1)
      have h1 : (2 : ℚ) ^ (23 : ℤ) ≤ ((|roundEven (x / 2 ^ ulpExp x)| : ℤ) : ℚ) := by
        have : ((2 ^ 23 : ℤ) : ℚ) ≤ ((|roundEven (x / 2 ^ ulpExp x)| : ℤ) : ℚ) := by exact_mod_cast hge
        norm_num at this ⊢; exact this
      refine le_trans ?_ (mul_le_mul_of_nonneg_right h1 hp.le)
      rw [← zpow_add₀ (by norm_num)]
      exact zpow_le_zpow_right₀ (by norm_num) (by omega)

end Buzz.F32
