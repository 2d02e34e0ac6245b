import Verif.F32Near
import Verif.F32Round
import Verif.Props.VMValues

/-
C69 (float arithmetic): the arithmetic instructions on floats, or on a float and an integer.  `Rounds x f` says without the
model's functions that `f` is the float nearest to the exact number `x`.
-/
namespace Buzz.Props

open Buzz.F32 Buzz.Msg Buzz.Heap Buzz.VM

/-! ### Specification -/

/-- The last of the 24 digits of `r` is 0. -/
def EvenDigit (r : ℚ) : Prop := ∃ m e : ℤ, r = m * 2 ^ e ∧ Even m ∧ |m| ≤ 2 ^ 24 ∧ -149 ≤ e ∧ (e = -149 ∨ 2 ^ 23 ≤ |m|)

/-- `f` is the exact number `x` rounded to a float: a nearest one, the even one of two; from the middle between the largest float and
its successor on, infinity. -/
def Rounds (x : ℚ) : Flt → Prop
  | .fin r => IsF32 r ∧ |x| < 2 ^ 128 - 2 ^ 103 ∧ (∀ y, IsF32 y → |r - x| ≤ |y - x|) ∧ ∀ y, IsF32 y → y ≠ r → |y - x| = |r - x| → EvenDigit r
  | .inf neg => 2 ^ 128 - 2 ^ 103 ≤ |x| ∧ (neg = true ↔ x < 0)
  | .nan => False

/-- The operand `x`, converted to a float if it is an integer, is `f`. -/
def AsFloat : Obj → Flt → Prop
  | .int v, f => Rounds v f
  | .flt g, f => g = f
  | _, _ => False

/-- At least one of two numbers is a float. -/
def Mixed : Obj → Obj → Prop
  | .flt _, .flt _ => True
  | .flt _, .int _ => True
  | .int _, .flt _ => True
  | _, _ => False

/-- Negative. -/
def Minus : Flt → Prop
  | .fin q => q < 0
  | .inf n => n = true
  | .nan => False

/-- `a + b` by the standard. -/
def IsSum : Flt → Flt → Flt → Prop
  | .fin a, .fin b, c => Rounds (a + b) c
  | .inf m, .fin _, c => c = .inf m
  | .fin _, .inf n, c => c = .inf n
  | .inf true, .inf true, c => c = .inf true
  | .inf false, .inf false, c => c = .inf false
  | _, _, c => c = .nan

/-- `a - b`. -/
def IsDiff : Flt → Flt → Flt → Prop
  | .fin a, .fin b, c => Rounds (a - b) c
  | .inf m, .fin _, c => c = .inf m
  | .fin _, .inf n, c => c = .inf !n
  | .inf true, .inf false, c => c = .inf true
  | .inf false, .inf true, c => c = .inf false
  | _, _, c => c = .nan

/-- An infinite result with the sign of the product of `a` and `b`. -/
def IsInfinite (a b c : Flt) : Prop := ∃ n, c = .inf n ∧ (n = true ↔ ¬ (Minus a ↔ Minus b))

/-- `a * b`. -/
def IsProduct : Flt → Flt → Flt → Prop
  | .fin a, .fin b, c => Rounds (a * b) c
  | .inf m, .fin b, c => if b = 0 then c = .nan else IsInfinite (.inf m) (.fin b) c
  | .fin a, .inf n, c => if a = 0 then c = .nan else IsInfinite (.fin a) (.inf n) c
  | .inf m, .inf n, c => IsInfinite (.inf m) (.inf n) c
  | _, _, c => c = .nan

/-- `a / b`; zero has no sign. -/
def IsQuotient : Flt → Flt → Flt → Prop
  | .fin a, .fin b, c => if b = 0 then (if a = 0 then c = .nan else IsInfinite (.fin a) (.fin b) c) else Rounds (a / b) c
  | .inf m, .fin b, c => IsInfinite (.inf m) (.fin b) c
  | .fin _, .inf _, c => c = .fin 0
  | _, _, c => c = .nan

/-- The remainder of a division of `a` by `b ≠ 0` towards zero. -/
def IsRem (a b r : ℚ) : Prop := (∃ q : ℤ, a = b * q + r) ∧ |r| < |b| ∧ (0 < r → 0 < a) ∧ (r < 0 → a < 0)

/-- `a % b` of two floats: the remainder, increased by `b` if it is negative. -/
def IsMod : Flt → Flt → Flt → Prop
  | .fin a, .fin b, c => if b = 0 then c = .nan else ∃ r, IsRem a b r ∧ (if r < 0 then Rounds (r + b) c else c = .fin r)
  | .fin a, .inf n, c => if a < 0 then c = .inf n else c = .fin a
  | _, _, c => c = .nan

/-- The float with the sign `s` (0 or 1), the exponent `e` and the digits `m`. -/
def IsLiteral (s e m : Nat) : Flt → Prop
  | .fin q => (e = 0 ∧ q = (-1) ^ s * (m / 2 ^ 23) * 2 ^ (-126 : ℤ)) ∨ (0 < e ∧ e < 255 ∧ q = (-1) ^ s * (1 + m / 2 ^ 23) * 2 ^ ((e : ℤ) - 127))
  | .inf n => e = 255 ∧ m = 0 ∧ (n = true ↔ s = 1)
  | .nan => e = 255 ∧ m ≠ 0

/-! ### Rounding -/

/-- **C69** rounding: `toFlt`, the conversion of an exact number that all operations of the model use, is rounding to the nearest float. -/
theorem C69_rounds (x : ℚ) : Rounds x (toFlt x) := by
  have e128 : (2 : ℚ) ^ (128 : ℤ) = 2 ^ 128 := by norm_num
  have e103 : (2 : ℚ) ^ (103 : ℤ) = 2 ^ 103 := by norm_num
  have ho := rnd_overflow x
  rw [e128, e103] at ho
  unfold toFlt
  rw [e128]
  by_cases h : (2 : ℚ) ^ 128 ≤ |rnd x|
  · rw [if_pos h]
    exact ⟨ho.mp h, by simp⟩
  · rw [if_neg h]
    refine ⟨rnd_format (by rw [e128]; exact not_le.mp h), not_le.mp (fun k => h (ho.mpr k)), ?_, ?_⟩
    · rintro y ⟨n, k, h1, h2, h3, rfl⟩
      exact rnd_nearest x h1 h2
    · rintro y ⟨n, k, h1, h2, h3, rfl⟩ hne ht
      exact rnd_tie x h1 h2 hne ht

/-- **C69** floats are not changed by rounding, and nothing else is a rounding of a float. -/
theorem C69_exact {x : ℚ} (h : IsF32 x) (f : Flt) : Rounds x f ↔ f = .fin x := by
  constructor
  · intro hf
    cases f with
    | fin r =>
      have := hf.2.2.1 x h
      rw [sub_self, abs_zero] at this
      have := abs_nonpos_iff.mp this
      rw [sub_eq_zero.mp this]
    | inf n =>
      exfalso
      have h1 := C69_rounds x
      rw [toFlt_isF32 h] at h1
      exact absurd hf.1 (not_le.mpr h1.2.1)
    | nan => exact hf.elim
  · rintro rfl
    rw [← toFlt_isF32 h]
    exact C69_rounds x

/-- One third is no float; the nearest one is 11184811 / 2^25.  The number half-way between two floats 16777216 and 16777218 goes to the
even one, and so does that between 16777218 and 16777220. -/
example : toFlt (1 / 3) = .fin (11184811 / 33554432) ∧ toFlt 16777217 = .fin 16777216 ∧ toFlt 16777219 = .fin 16777220 ∧
    toFlt (2 ^ 128 - 2 ^ 103) = .inf false ∧ toFlt (-(2 ^ 128 - 2 ^ 103 - 1)) = .fin (-(2 ^ 128 - 2 ^ 104)) := by decide +kernel

/-! ### The operations -/

theorem num_as {x : Obj} {a : Flt} (h : num x = some a) : AsFloat x a := by
  cases x <;> simp only [num, Option.some.injEq, reduceCtorEq] at h
  · subst h; exact C69_rounds _
  · exact h

theorem mixed_num {x y : Obj} (h : Mixed x y) : (∃ a b, num x = some a ∧ num y = some b) ∧
    ∀ fi ff, arithV fi ff x y = (match num x, num y with | some a, some b => some (.ok (.flt (ff a b))) | _, _ => none) := by
  cases x <;> cases y <;> first | exact h.elim | exact ⟨⟨_, _, rfl, rfl⟩, fun _ _ => rfl⟩

theorem isSum_addF (a b : Flt) : IsSum a b (addF a b) := by
  cases a with
  | fin a => cases b <;> first | exact C69_rounds _ | rfl
  | inf m => cases b with
    | inf n => cases m <;> cases n <;> rfl
    | _ => cases m <;> rfl
  | nan => cases b <;> rfl

theorem isDiff_subF (a b : Flt) : IsDiff a b (addF a (negF b)) := by
  cases a with
  | fin a => cases b with
    | fin b => show Rounds (a - b) (toFlt (a + -b)); rw [← sub_eq_add_neg]; exact C69_rounds _
    | _ => rfl
  | inf m => cases b with
    | inf n => cases m <;> cases n <;> rfl
    | _ => cases m <;> rfl
  | nan => cases b <;> rfl

theorem sgn_iff (a : Flt) : sgn a = true ↔ Minus a := by
  cases a <;> simp [sgn, Minus]

theorem infinite_xor (a b : Flt) : IsInfinite a b (.inf (xor (sgn a) (sgn b))) := by
  refine ⟨_, rfl, ?_⟩
  rw [← sgn_iff, ← sgn_iff]
  cases sgn a <;> cases sgn b <;> simp

theorem isProduct_mulF (a b : Flt) : IsProduct a b (mulF a b) := by
  cases a with
  | fin a => cases b with
    | fin b => exact C69_rounds _
    | inf n =>
      by_cases h : a = 0
      · subst h; simp [IsProduct, mulF]
      · simp only [IsProduct, if_neg h, mulF, Flt.fin.injEq, h, reduceCtorEq, or_self, if_false]
        exact infinite_xor _ _
    | nan => rfl
  | inf m => cases b with
    | fin b =>
      by_cases h : b = 0
      · subst h; simp [IsProduct, mulF]
      · simp only [IsProduct, if_neg h, mulF, Flt.fin.injEq, h, reduceCtorEq, or_self, if_false]
        exact infinite_xor _ _
    | inf n =>
      simp only [IsProduct, mulF, reduceCtorEq, or_self, if_false]
      exact infinite_xor _ _
    | nan => rfl
  | nan => cases b <;> rfl

theorem isQuotient_divF (a b : Flt) : IsQuotient a b (divF a b) := by
  cases a with
  | fin a => cases b with
    | fin b =>
      by_cases h : b = 0
      · subst h
        by_cases h2 : a = 0
        · subst h2; simp [IsQuotient, divF]
        · simp only [IsQuotient, divF, if_pos, if_neg h2]
          exact ⟨_, rfl, by simp [Minus]⟩
      · simp only [IsQuotient, divF, if_neg h]
        exact C69_rounds _
    | _ => rfl
  | inf m => cases b with
    | fin b => exact infinite_xor (.inf m) (.fin b)
    | _ => rfl
  | nan => cases b <;> rfl

theorem isRem_trunc {a b : ℚ} (h : b ≠ 0) : IsRem a b (a - b * (if 0 ≤ a / b then ⌊a / b⌋ else ⌈a / b⌉ : ℤ)) := by
  set z := a / b with hz
  have ha : a = b * z := by rw [hz]; field_simp
  set t : ℤ := if 0 ≤ z then ⌊z⌋ else ⌈z⌉ with ht
  have hr : a - b * t = b * (z - t) := by rw [ha]; ring
  have key : |z - t| < 1 ∧ (0 ≤ z → 0 ≤ z - t) ∧ (z < 0 → z - t ≤ 0) ∧ (z = 0 → z - t = 0) := by
    have f1 := Int.floor_le z
    have f2 := Int.lt_floor_add_one z
    have c1 := Int.le_ceil z
    have c2 := Int.ceil_lt_add_one z
    by_cases h0 : 0 ≤ z
    · rw [ht, if_pos h0]
      refine ⟨abs_lt.mpr ⟨by linarith, by linarith⟩, fun _ => by linarith, fun h => absurd h (not_lt.mpr h0), fun h => by rw [h]; simp⟩
    · rw [ht, if_neg h0]
      refine ⟨abs_lt.mpr ⟨by linarith, by linarith⟩, fun h => absurd h h0, fun _ => by linarith, fun h => absurd h.ge h0⟩
  obtain ⟨k1, k2, k3, k4⟩ := key
  refine ⟨⟨t, by ring⟩, ?_, ?_, ?_⟩
  · rw [hr, abs_mul]
    exact (mul_lt_mul_of_pos_left k1 (abs_pos.mpr h)).trans_eq (mul_one _)
  · intro hp
    rw [hr] at hp
    rw [ha]
    rcases lt_trichotomy z 0 with hz0 | hz0 | hz0
    · have := k3 hz0
      rcases lt_or_gt_of_ne h with hb | hb
      · exact mul_pos_of_neg_of_neg hb hz0
      · exact absurd hp (not_lt.mpr (mul_nonpos_of_nonneg_of_nonpos hb.le this))
    · rw [k4 hz0] at hp; simp at hp
    · have := k2 hz0.le
      rcases lt_or_gt_of_ne h with hb | hb
      · exact absurd hp (not_lt.mpr (mul_nonpos_of_nonpos_of_nonneg hb.le this))
      · exact mul_pos hb hz0
  · intro hp
    rw [hr] at hp
    rw [ha]
    rcases lt_trichotomy z 0 with hz0 | hz0 | hz0
    · have := k3 hz0
      rcases lt_or_gt_of_ne h with hb | hb
      · exact absurd hp (not_lt.mpr (mul_nonneg_of_nonpos_of_nonpos hb.le this))
      · exact mul_neg_of_pos_of_neg hb hz0
    · rw [k4 hz0] at hp; simp at hp
    · have := k2 hz0.le
      rcases lt_or_gt_of_ne h with hb | hb
      · exact mul_neg_of_neg_of_pos hb hz0
      · exact absurd hp (not_lt.mpr (mul_nonneg hb.le this))

/-- The remainder is determined. -/
theorem isRem_unique {a b r r' : ℚ} (h : IsRem a b r) (h' : IsRem a b r') : r = r' := by
  obtain ⟨⟨q, e⟩, h1, h2, h3⟩ := h
  obtain ⟨⟨q', e'⟩, h1', h2', h3'⟩ := h'
  have hb : b ≠ 0 := by rintro rfl; rw [abs_zero] at h1; exact absurd h1 (not_lt.mpr (abs_nonneg _))
  -- the two remainders have no opposite signs, so they differ by less than `b`
  have hd : |r - r'| < |b| := by
    rcases lt_trichotomy a 0 with ha | ha | ha
    · have r0 : r ≤ 0 := not_lt.mp (fun h => absurd (h2 h) (not_lt.mpr ha.le))
      have r0' : r' ≤ 0 := not_lt.mp (fun h => absurd (h2' h) (not_lt.mpr ha.le))
      rw [abs_of_nonpos r0] at h1
      rw [abs_of_nonpos r0'] at h1'
      exact abs_lt.mpr ⟨by linarith, by linarith⟩
    · subst ha
      have r0 : r = 0 := le_antisymm (not_lt.mp (fun h => absurd (h2 h) (lt_irrefl _))) (not_lt.mp (fun h => absurd (h3 h) (lt_irrefl _)))
      have r0' : r' = 0 := le_antisymm (not_lt.mp (fun h => absurd (h2' h) (lt_irrefl _))) (not_lt.mp (fun h => absurd (h3' h) (lt_irrefl _)))
      rw [r0, r0', sub_zero, abs_zero]; exact abs_pos.mpr hb
    · have r0 : 0 ≤ r := not_lt.mp (fun h => absurd (h3 h) (not_lt.mpr ha.le))
      have r0' : 0 ≤ r' := not_lt.mp (fun h => absurd (h3' h) (not_lt.mpr ha.le))
      rw [abs_of_nonneg r0] at h1
      rw [abs_of_nonneg r0'] at h1'
      exact abs_lt.mpr ⟨by linarith, by linarith⟩
  have hq : r - r' = b * ((q' - q : ℤ) : ℚ) := by push_cast; linarith
  have : q' - q = 0 := by
    by_contra hne
    have : (1 : ℚ) ≤ |((q' - q : ℤ) : ℚ)| := by exact_mod_cast Int.one_le_abs hne
    rw [hq, abs_mul] at hd
    have : |b| * 1 ≤ |b| * |((q' - q : ℤ) : ℚ)| := mul_le_mul_of_nonneg_left this (abs_nonneg b)
    linarith
  rw [this] at hq
  simp at hq
  linarith

/-- The remainder of two floats is a float. -/
theorem isRem_isF32 {a b r : ℚ} (ha : IsF32 a) (hb : IsF32 b) (h : IsRem a b r) : IsF32 r := by
  obtain ⟨n, k, n1, k1, k2, rfl⟩ := ha
  obtain ⟨m, l, m1, l1, l2, rfl⟩ := hb
  obtain ⟨⟨q, e⟩, h1, h2, h3⟩ := h
  -- the remainder is not larger than the dividend
  have hle : |r| ≤ |(n : ℚ) * 2 ^ k| := by
    by_cases hq : q = 0
    · subst hq
      rw [show (n : ℚ) * 2 ^ k = r from by rw [e]; simp]
    · have : (1 : ℚ) ≤ |(q : ℚ)| := by exact_mod_cast Int.one_le_abs hq
      have hbq : |(m : ℚ) * 2 ^ l| ≤ |(m : ℚ) * 2 ^ l * q| := by
        rw [abs_mul _ (q : ℚ)]
        exact le_mul_of_one_le_right (abs_nonneg _) this
      have hlt : |r| < |(m : ℚ) * 2 ^ l * q| := h1.trans_le hbq
      generalize (m : ℚ) * 2 ^ l * q = w at e hlt
      generalize (n : ℚ) * 2 ^ k = a at e h2 h3
      rcases lt_trichotomy r 0 with hr | hr | hr
      · have := h3 hr
        rw [abs_of_neg hr, abs_of_neg this]
        rw [abs_of_neg hr] at hlt
        rcases abs_cases w with ⟨e1, e2⟩ | ⟨e1, e2⟩ <;> rw [e1] at hlt <;> linarith
      · rw [hr, abs_zero]; exact abs_nonneg _
      · have := h2 hr
        rw [abs_of_pos hr, abs_of_pos this]
        rw [abs_of_pos hr] at hlt
        rcases abs_cases w with ⟨e1, e2⟩ | ⟨e1, e2⟩ <;> rw [e1] at hlt <;> linarith
  have scale : ∀ (i j : ℤ), i ≤ j → ∀ v : ℤ, (v : ℚ) * 2 ^ j = ((v * 2 ^ (j - i).toNat : ℤ) : ℚ) * 2 ^ i := fun i j hij v => by
    have hp : (2 : ℚ) ^ (j - i).toNat = 2 ^ (j - i) := by rw [← zpow_natCast, Int.toNat_of_nonneg (by omega)]
    push_cast
    rw [hp, mul_assoc, ← zpow_add₀ (by norm_num)]
    congr 2; omega
  have cmp : ∀ (i v w : ℤ), |(v : ℚ) * 2 ^ i| ≤ |(w : ℚ) * 2 ^ i| → |v| ≤ |w| := fun i v w h => by
    rw [abs_mul, abs_mul, abs_of_pos (two_zpow_pos i)] at h
    have := le_of_mul_le_mul_right h (two_zpow_pos i)
    exact_mod_cast this
  rcases le_total k l with hkl | hkl
  · rw [scale k l hkl m] at e
    have hr : r = ((n - m * 2 ^ (l - k).toNat * q : ℤ) : ℚ) * 2 ^ k := by
      rw [← sub_eq_iff_eq_add'.mpr e]; push_cast; ring
    refine ⟨_, k, ?_, k1, k2, hr⟩
    rw [hr] at hle
    exact (cmp _ _ _ hle).trans_lt n1
  · rw [scale l k hkl n] at e
    have hr : r = ((n * 2 ^ (k - l).toNat - m * q : ℤ) : ℚ) * 2 ^ l := by
      rw [← sub_eq_iff_eq_add'.mpr e]; push_cast; ring
    refine ⟨_, l, ?_, l1, l2, hr⟩
    rw [hr] at h1
    exact (cmp _ _ _ h1.le).trans_lt m1

theorem isMod_fix (a b : Flt) : IsMod a b (fixMod (fmodF a b) b) := by
  cases a with
  | fin a => cases b with
    | fin b =>
      by_cases h : b = 0
      · subst h; simp [IsMod, fmodF, fixMod, Obj.ltF]
      · simp only [IsMod, if_neg h]
        refine ⟨_, isRem_trunc h, ?_⟩
        simp only [fmodF, if_neg h]
        generalize a - b * _ = r
        unfold fixMod
        by_cases hr : r < 0
        · rw [if_pos hr, if_pos (by simpa [Obj.ltF] using hr)]
          exact C69_rounds _
        · rw [if_neg hr, if_neg (by simpa [Obj.ltF] using hr)]
    | inf n =>
      by_cases h : a < 0 <;> simp [IsMod, fmodF, fixMod, Obj.ltF, h, addF]
    | nan => simp [IsMod, fmodF, fixMod, Obj.ltF]
  | inf m => cases b <;> simp [IsMod, fmodF, fixMod, Obj.ltF]
  | nan => cases b <;> simp [IsMod, fmodF, fixMod, Obj.ltF]

/-- **C69** addition, subtraction, multiplication and division with at least one float: integers are converted, the exact result is rounded, infinities
and NaN follow the standard. -/
theorem C69_arith {E : Env} {F : CFuns} {vm : VM} {op : Bin} {x y : Obj} (w : At1 vm (.bin op)) (hx : Val vm 1 x) (hy : Val vm 0 y) (hm : Mixed x y) :
    ∃ a b c, AsFloat x a ∧ AsFloat y b ∧
      (op = .add → IsSum a b c ∧ Yields E F vm (.flt c)) ∧ (op = .sub → IsDiff a b c ∧ Yields E F vm (.flt c)) ∧
      (op = .mul → IsProduct a b c ∧ Yields E F vm (.flt c)) ∧ (op = .div → IsQuotient a b c ∧ Yields E F vm (.flt c)) := by
  obtain ⟨⟨a, b, ha, hb⟩, ho⟩ := mixed_num hm
  rw [ha, hb] at ho
  refine ⟨a, b, match op with | .add => addF a b | .sub => addF a (negF b) | .mul => mulF a b | .div => divF a b | _ => .nan, num_as ha, num_as hb, ?_, ?_, ?_, ?_⟩
  · rintro rfl; exact ⟨isSum_addF a b, step_bin w hx hy (ho _ _)⟩
  · rintro rfl; exact ⟨isDiff_subF a b, step_bin w hx hy (ho _ _)⟩
  · rintro rfl; exact ⟨isProduct_mulF a b, step_bin w hx hy (ho _ _)⟩
  · rintro rfl; exact ⟨isQuotient_divF a b, step_bin w hx hy (ho _ _)⟩

/-- **C69** `^` always gives the value of `powf` for the operands, in their order. -/
theorem C69_pow {E : Env} {F : CFuns} {vm : VM} {x y : Obj} (w : At1 vm (.bin .pow)) (hx : Val vm 1 x) (hy : Val vm 0 y)
    (nx : (∃ v, x = .int v) ∨ ∃ f, x = .flt f) (ny : (∃ v, y = .int v) ∨ ∃ f, y = .flt f) :
    ∃ a b, AsFloat x a ∧ AsFloat y b ∧ Yields E F vm (.flt (E.powf a b)) := by
  have : ∃ a b, num x = some a ∧ num y = some b := by
    rcases nx with ⟨_, rfl⟩ | ⟨_, rfl⟩ <;> rcases ny with ⟨_, rfl⟩ | ⟨_, rfl⟩ <;> exact ⟨_, _, rfl, rfl⟩
  obtain ⟨a, b, ha, hb⟩ := this
  refine ⟨a, b, num_as ha, num_as hb, step_bin w hx hy ?_⟩
  simp only [binV, powV, ha, hb]

/-- **C69** `%` on two floats. -/
theorem C69_mod {E : Env} {F : CFuns} {vm : VM} {a b : Flt} (w : At1 vm (.bin .mod)) (hx : Val vm 1 (.flt a)) (hy : Val vm 0 (.flt b)) :
    ∃ c, IsMod a b c ∧ Yields E F vm (.flt c) := ⟨_, isMod_fix a b, step_bin w hx hy rfl⟩

/-- **C69** with a positive divisor the result of `%` is between zero and the divisor. -/
theorem C69_mod_range {a b : ℚ} (hb : 0 < b) (fb : IsF32 b) {c : Flt} (h : IsMod (.fin a) (.fin b) c) : ∃ r, c = .fin r ∧ 0 ≤ r ∧ r ≤ b := by
  simp only [IsMod, if_neg hb.ne'] at h
  obtain ⟨r, ⟨_, h1, _, _⟩, h2⟩ := h
  rw [abs_of_pos hb] at h1
  obtain ⟨l, u⟩ := abs_lt.mp h1
  split at h2
  · rename_i hr
    -- the rounded number lies between 0 and `b`, both floats
    cases c with
    | fin s =>
      obtain ⟨g1, g2, g3, g4⟩ := h2
      have z := g3 0 (isF32_int 0 (by norm_num))
      have t := g3 b fb
      refine ⟨s, rfl, ?_, ?_⟩
      · by_contra hs
        rw [not_le] at hs
        rw [abs_of_neg (by linarith), abs_of_neg (by linarith)] at z
        linarith
      · by_contra hs
        rw [not_le] at hs
        rw [abs_of_pos (by linarith), abs_of_pos (by linarith)] at t
        linarith
    | inf n =>
      exfalso
      have := isF32_abs_lt fb
      have h5 := (C69_exact fb (.fin b)).mpr rfl
      have := h5.2.1
      rw [abs_of_pos hb] at this
      have h6 := h2.1
      rw [abs_of_pos (by linarith)] at h6
      linarith
    | nan => exact h2.elim
  · rename_i hr
    exact ⟨r, h2, not_lt.mp hr, u.le⟩

/-- **C69** `%` of two floats needs no rounding where the remainder is not negative, and always gives a float. -/
theorem C69_mod_float {a b r : ℚ} (fa : IsF32 a) (fb : IsF32 b) (h : IsMod (.fin a) (.fin b) (.fin r)) : IsF32 r := by
  by_cases hb : b = 0
  · simp only [IsMod, if_pos hb, reduceCtorEq] at h
  · simp only [IsMod, if_neg hb] at h
    obtain ⟨s, h1, h2⟩ := h
    split at h2
    · exact h2.1
    · cases h2
      exact isRem_isF32 fa fb h1

/-- **C69**, a deviation: the result of `%` can be the divisor itself: the remainder -2^-149 plus 1 is rounded to 1. -/
theorem C69_mod_divisor {E : Env} {F : CFuns} {vm : VM} (w : At1 vm (.bin .mod)) (hx : Val vm 1 (.flt (.fin (-1 / 2 ^ 149)))) (hy : Val vm 0 (.flt (.fin 1))) :
    Yields E F vm (.flt (.fin 1)) := step_bin w hx hy (by
      show some (Res.ok (Obj.flt (fixMod (fmodF (.fin (-1 / 2 ^ 149)) (.fin 1)) (.fin 1)))) = _
      congr 3
      decide +kernel)

/-- Not a negative number. -/
def NotMinus : Obj → Prop
  | .int v => 0 ≤ v
  | .flt f => ¬ Minus f
  | _ => False

theorem num_notMinus {x : Obj} {a : Flt} (h : NotMinus x) (ha : num x = some a) : ¬ Minus a := by
  cases x with
  | int v =>
    simp only [num, Option.some.injEq] at ha
    subst ha
    have hv : (0 : ℚ) ≤ (v : ℚ) := by exact_mod_cast (show 0 ≤ v from h)
    unfold toFlt
    split
    · have h' : 0 ≤ v := h
      simpa [Minus] using h'
    · exact not_lt.mpr (rnd_nonneg hv)
  | flt f =>
    simp only [num, Option.some.injEq] at ha
    subst ha
    exact h
  | _ => exact h.elim

/-- **C69** `%` of a float and an integer, or of an integer and a float, where the first is not negative: as for two floats. -/
theorem C69_mod_mixed {E : Env} {F : CFuns} {vm : VM} {x y : Obj} (w : At1 vm (.bin .mod)) (hx : Val vm 1 x) (hy : Val vm 0 y) (hm : Mixed x y)
    (hn : NotMinus x) : ∃ a b c, AsFloat x a ∧ AsFloat y b ∧ IsMod a b c ∧ Yields E F vm (.flt c) := by
  obtain ⟨⟨a', b, ha, hb⟩, _⟩ := mixed_num hm
  have h0 := num_notMinus hn ha
  -- the remainder is not negative, so nothing is added
  have hz : Obj.ltF (fmodF a' b) (.fin 0) = false := by
    cases a' with
    | fin q =>
      cases b with
      | fin d =>
        by_cases h : d = 0
        · simp [fmodF, h, Obj.ltF]
        · simp only [fmodF, if_neg h, Obj.ltF, decide_eq_false_iff_not]
          exact fun k => h0 ((isRem_trunc h).2.2.2 k)
      | inf n => simp only [fmodF, Obj.ltF, decide_eq_false_iff_not]; exact h0
      | nan => rfl
    | inf m => cases b <;> rfl
    | nan => cases b <;> rfl
  have fx : ∀ z, fixMod (fmodF a' b) z = fmodF a' b := fun z => by unfold fixMod; rw [hz]; rfl
  have hi := isMod_fix a' b
  rw [fx] at hi
  refine ⟨a', b, fmodF a' b, num_as ha, num_as hb, hi, step_bin w hx hy ?_⟩
  cases x <;> cases y <;> first | exact hm.elim | skip
  all_goals
    simp only [num, Option.some.injEq] at ha hb
    subst ha; subst hb
    simp only [binV, modV, fx]

/-- **C69**, a deviation: with a negative float and an integer the number added to the remainder is the float with the bits of the integer, so `-1.0 % 3` is -1;
with a negative integer and a float it is the integer with the bits of the float, so `-1 % 3.0` is 1077936128, if the host's floats are IEEE numbers. -/
theorem C69_mod_wrong {E : Env} {F : CFuns} {vm : VM} (w : At1 vm (.bin .mod)) :
    (Val vm 1 (.flt (.fin (-1))) → Val vm 0 (.int 3) → Yields E F vm (.flt (.fin (-1)))) ∧
    (E.bits (.fin 3) = 1077936128 → Val vm 1 (.int (-1)) → Val vm 0 (.flt (.fin 3)) → Yields E F vm (.flt (.fin 1077936128))) := by
  constructor
  · intro hx hy
    refine step_bin w hx hy ?_
    show some (Res.ok (Obj.flt (fixMod (fmodF (.fin (-1)) (toFlt ((3 : ℤ) : ℚ))) (ofBits (u32OfInt 3))))) = _
    congr 3
    decide +kernel
  · intro hb hx hy
    refine step_bin w hx hy ?_
    show some (Res.ok (Obj.flt (fixMod (fmodF (toFlt ((-1 : ℤ) : ℚ)) (.fin 3)) (toFlt ((E.bits (.fin 3) : ℤ) : ℚ))))) = _
    rw [hb]
    congr 3
    decide +kernel

/-- **C69** unary minus. -/
theorem C69_neg {E : Env} {F : CFuns} {vm : VM} {a : Flt} (w : At1 vm (.un .unm)) (ha : Val vm 0 (.flt a)) :
    ∃ c, Yields1 E F vm (.flt c) ∧ match a with | .fin q => c = .fin (-q) | .inf n => c = .inf !n | .nan => c = .nan := by
  refine ⟨negF a, step_un w ha rfl, ?_⟩
  cases a <;> rfl

/-- **C69** a float literal in the bytecode is the number with this sign, exponent and these digits. -/
theorem C69_literal {E : Env} {F : CFuns} {vm : VM} {s e m : Nat} (hs : s < 2) (he : e < 256) (hm : m < 2 ^ 23) (w : At1 vm .pushf)
    (ha : Arg E vm (s * 2 ^ 31 + e * 2 ^ 23 + m)) :
    ∃ f vm', IsLiteral s e m f ∧ step E F vm = .ok vm' ∧ Replaced vm vm' 0 (.atom (.flt f)) ∧ Next vm' (vm.pc + 5) := by
  have e1 : (s * 2 ^ 31 + e * 2 ^ 23 + m) / 8388608 % 256 = e := by omega
  have e2 : (s * 2 ^ 31 + e * 2 ^ 23 + m) % 8388608 = m := by omega
  have e3 : (s * 2 ^ 31 + e * 2 ^ 23 + m) / 2147483648 % 2 = s := by omega
  generalize s * 2 ^ 31 + e * 2 ^ 23 + m = n at ha e1 e2 e3
  have hl : IsLiteral s e m (ofBits n) := by
    have hsg : (if s = 1 then (-1 : ℚ) else 1) = (-1) ^ s := by
      rcases (by omega : s = 0 ∨ s = 1) with rfl | rfl <;> simp
    unfold ofBits
    simp only [e1, e2, e3, hsg]
    by_cases h1 : e = 255
    · rw [if_pos h1]
      by_cases h2 : m = 0
      · rw [if_pos h2]; exact ⟨h1, h2, by simp⟩
      · rw [if_neg h2]; exact ⟨h1, h2⟩
    · rw [if_neg h1]
      by_cases h2 : e = 0
      · rw [if_pos h2]
        refine .inl ⟨h2, ?_⟩
        rw [show (-149 : ℤ) = -126 - 23 by norm_num, zpow_sub₀ (by norm_num)]
        norm_num
        ring
      · rw [if_neg h2]
        refine .inr ⟨by omega, by omega, ?_⟩
        rw [show ((e : ℤ) - 150) = (e - 127) - 23 by ring, zpow_sub₀ (by norm_num)]
        norm_num
        ring
  obtain ⟨h', sm', e, j, k, _⟩ := step_exec (E := E) (F := F) w
  refine ⟨ofBits n, push { vm with heap := h', strings := sm', pc := vm.pc + 5 } (.atom (.flt (ofBits n))), hl, ?_, ⟨⟨_, rfl, holds_new j.heap _⟩, fun a c r hc => holds_old j.heap (k a c r hc), ⟨rfl, rfl, rfl, rfl, rfl, rfl, rfl⟩⟩, ?_⟩
  · rw [e]
    simp only [exec]
    rw [incArg (v := { vm with heap := h', strings := sm' }) w.pc (show Arg E { vm with heap := h', strings := sm' } n from ha)]
    rfl
  · exact ⟨rfl, .inl ⟨by have := w.pc.1; omega, ha.2, w.ready⟩⟩

/-- `1.5 * 2`, `-7.5 % 2.0` and `1.0 / 0` computed by the machine. -/
example : result [0, 0, 35, 0, 0, 192, 63, 36, 2, 0, 0, 0, 9, 1] = .ok (some (.flt (.fin 3)), .none) ∧
    result [0, 0, 35, 0, 0, 240, 192, 35, 0, 0, 0, 64, 11, 1] = .ok (some (.flt (.fin (1 / 2))), .none) ∧
    result [0, 0, 35, 0, 0, 128, 63, 36, 0, 0, 0, 0, 10, 1] = .ok (some (.flt (.inf false)), .none) := by decide +kernel

end Buzz.Props
