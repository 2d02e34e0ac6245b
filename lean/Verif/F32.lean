import Verif.Basic
import Mathlib.Data.Int.Log
import Mathlib.Data.Rat.Floor
import Mathlib.Algebra.Order.Floor.Ring
import Mathlib.Tactic.NormNum
import Mathlib.Tactic.Linarith
import Mathlib.Tactic.Positivity
import Mathlib.Tactic.FieldSimp
import Mathlib.Tactic.Ring

/-
IEEE-754 binary32 values as exact rationals with explicit rounding.  This renders C `float` arithmetic
with `FLT_EVAL_METHOD == 0` and round-to-nearest-even.  Simplification: `+0` and `-0` are one value.
-/
namespace Buzz.F32

/-- A `float`: finite value, infinity or NaN. -/
inductive Flt where
  | fin (q : ℚ)
  | inf (neg : Bool)
  | nan
  deriving DecidableEq

/-- Round to the nearest integer, ties to even. -/
def roundEven (y : ℚ) : ℤ :=
  let f := ⌊y⌋
  let r := y - f
  if r < 1 / 2 then f else if 1 / 2 < r then f + 1 else if f % 2 = 0 then f else f + 1

/-- Exponent of the last place of the binary32 number nearest to `x ≠ 0` (before overflow). -/
def ulpExp (x : ℚ) : ℤ := max (Int.log 2 |x| - 23) (-149)

/-- Round a rational to 24 significant bits with minimum exponent -149. -/
def rnd (x : ℚ) : ℚ := if x = 0 then 0 else (roundEven (x / 2 ^ ulpExp x) : ℚ) * 2 ^ ulpExp x

/-- Round a rational to a `float`, with overflow to infinity. -/
def toFlt (x : ℚ) : Flt := if 2 ^ (128 : ℤ) ≤ |rnd x| then .inf (decide (x < 0)) else .fin (rnd x)

/-- `x` is a finite binary32 value: 24-bit integer times a power of two in the exponent range. -/
def IsF32 (x : ℚ) : Prop := ∃ n k : ℤ, |n| < 2 ^ 24 ∧ -149 ≤ k ∧ k ≤ 104 ∧ x = n * 2 ^ k

theorem roundEven_int (n : ℤ) : roundEven (n : ℚ) = n := by
  unfold roundEven
  simp

theorem two_zpow_pos (k : ℤ) : (0 : ℚ) < 2 ^ k := zpow_pos (by norm_num) k

/-- Numbers with at most 24 significant bits and no too small exponent are not changed by rounding. -/
theorem rnd_exact (n k : ℤ) (hn : |n| < 2 ^ 24) (hk : -149 ≤ k) : rnd ((n : ℚ) * 2 ^ k) = (n : ℚ) * 2 ^ k := by
  unfold rnd
  split
  · rename_i h; exact h.symm
  · rename_i h0
    have hn0 : n ≠ 0 := by
      intro h; apply h0; rw [h]; simp
    set x : ℚ := (n : ℚ) * 2 ^ k with hx
    have hxpos : 0 < |x| := abs_pos.mpr h0
    have habs : |x| = (|n| : ℤ) * 2 ^ k := by
      rw [hx, abs_mul, abs_of_pos (two_zpow_pos k), Int.cast_abs]
    -- the ulp exponent is at most k
    have hle : ulpExp x ≤ k := by
      unfold ulpExp
      apply max_le
      · have hlt : |x| < ((2 : ℕ) : ℚ) ^ (24 + k) := by
          rw [habs]
          push_cast
          rw [zpow_add₀ (by norm_num : (2 : ℚ) ≠ 0)]
          apply mul_lt_mul_of_pos_right _ (two_zpow_pos k)
          have : ((|n| : ℤ) : ℚ) < ((2 ^ 24 : ℤ) : ℚ) := by exact_mod_cast hn
          rw [Int.cast_abs] at this
          norm_num at this ⊢
          exact this
        have := (Int.lt_zpow_iff_log_lt (b := 2) (by norm_num) hxpos).mp hlt
        omega
      · exact hk
    -- so the scaled number is an integer
    have hint : x / 2 ^ ulpExp x = ((n * 2 ^ (k - ulpExp x).toNat : ℤ) : ℚ) := by
      push_cast
      have hp : (2 : ℚ) ^ (k - ulpExp x).toNat = 2 ^ (k - ulpExp x) := by
        rw [← zpow_natCast, Int.toNat_of_nonneg (by omega)]
      rw [hp, zpow_sub₀ (by norm_num : (2 : ℚ) ≠ 0), ← mul_div_assoc, ← hx]
    rw [hint, roundEven_int, ← hint]
    field_simp

theorem rnd_isF32 {x : ℚ} (h : IsF32 x) : rnd x = x := by
  obtain ⟨n, k, h1, h2, _, rfl⟩ := h
  exact rnd_exact n k h1 h2

theorem isF32_abs_lt {x : ℚ} (h : IsF32 x) : |x| < 2 ^ (128 : ℤ) := by
  obtain ⟨n, k, h1, h2, h3, rfl⟩ := h
  rw [abs_mul, abs_of_pos (two_zpow_pos k), ← Int.cast_abs]
  have e : (2 : ℚ) ^ (128 : ℤ) = 2 ^ (24 : ℤ) * 2 ^ (104 : ℤ) := by
    rw [← zpow_add₀ (by norm_num : (2 : ℚ) ≠ 0)]; norm_num
  rw [e]
  have h4 : ((|n| : ℤ) : ℚ) < 2 ^ (24 : ℤ) := by
    have : ((|n| : ℤ) : ℚ) < ((2 ^ 24 : ℤ) : ℚ) := by exact_mod_cast h1
    norm_num at this ⊢
    exact this
  have h5 : (2 : ℚ) ^ k ≤ 2 ^ (104 : ℤ) := zpow_le_zpow_right₀ (by norm_num) h3
  calc ((|n| : ℤ) : ℚ) * 2 ^ k < 2 ^ (24 : ℤ) * 2 ^ k := mul_lt_mul_of_pos_right h4 (two_zpow_pos k)
    _ ≤ _ := mul_le_mul_of_nonneg_left h5 (by positivity)

theorem toFlt_isF32 {x : ℚ} (h : IsF32 x) : toFlt x = .fin x := by
  unfold toFlt
  rw [rnd_isF32 h, if_neg (not_le.mpr (isF32_abs_lt h))]

/-- Decidable membership of small integers. -/
theorem isF32_int (n : ℤ) (h : |n| < 2 ^ 24) : IsF32 (n : ℚ) := ⟨n, 0, h, by norm_num, by norm_num, by simp⟩

theorem isF32_neg {x : ℚ} (h : IsF32 x) : IsF32 (-x) := by
  obtain ⟨n, k, h1, h2, h3, rfl⟩ := h
  exact ⟨-n, k, by simpa using h1, h2, h3, by push_cast; ring⟩

end Buzz.F32
