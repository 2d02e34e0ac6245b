import Verif.Table
import Verif.Props.Containers

/-
C11 (comparison laws) and C13 (table put/get).
-/
namespace Buzz.Props

open Buzz.F32 Buzz.Msg

/-! ## C11 -/

/-- The laws of a total order on a set `S` of values, for a comparison that returns a number whose sign is the answer. -/
structure OrderLaws (cmp : Obj → Obj → Res Int) (S : Obj → Prop) : Prop where
  total : ∀ a b, S a → S b → ∃ n, cmp a b = .ok n
  refl : ∀ a, S a → cmp a a = .ok 0
  swap : ∀ a b m n, S a → S b → cmp a b = .ok m → cmp b a = .ok n → n.sign = -m.sign
  trans : ∀ a b c m n k, S a → S b → S c → cmp a b = .ok m → cmp b c = .ok n → cmp a c = .ok k →
    m ≤ 0 → n ≤ 0 → k ≤ 0 ∧ (k = 0 → m = 0 ∧ n = 0)

/-- The integers. -/
def IsInt (o : Obj) : Prop := ∃ i, o = .int i
/-- The strings, with any string id. -/
def IsStr (o : Obj) : Prop := ∃ sid s, o = .str sid s ∧ Obj.CStr s
/-- The finite floats. -/
def IsFloat (o : Obj) : Prop := ∃ q, o = .flt (.fin q)

/-- **C11** integers. -/
theorem C11_int (sc : Bytes → Bytes → Int) : OrderLaws (Obj.cmp sc) IsInt where
  total := by rintro _ _ ⟨i, rfl⟩ ⟨j, rfl⟩; exact ⟨_, rfl⟩
  refl := by rintro _ ⟨i, rfl⟩; simp [Obj.cmp, Obj.cmpI]
  swap := by
    rintro _ _ m n ⟨i, rfl⟩ ⟨j, rfl⟩ h1 h2
    simp only [Obj.cmp, Res.ok.injEq] at h1 h2
    subst h1; subst h2
    unfold Obj.cmpI
    split <;> split <;> (try split) <;> (try split) <;> first | rfl | omega
  trans := by
    rintro _ _ _ m n k ⟨i, rfl⟩ ⟨j, rfl⟩ ⟨l, rfl⟩ h1 h2 h3 hm hn
    simp only [Obj.cmp, Res.ok.injEq] at h1 h2 h3
    subst h1; subst h2; subst h3
    revert hm hn
    unfold Obj.cmpI
    repeat' split
    all_goals omega

/-- **C11** finite floats. -/
theorem C11_float (sc : Bytes → Bytes → Int) : OrderLaws (Obj.cmp sc) IsFloat where
  total := by rintro _ _ ⟨i, rfl⟩ ⟨j, rfl⟩; exact ⟨_, rfl⟩
  refl := by rintro _ ⟨i, rfl⟩; simp [Obj.cmp, Obj.cmpF, Obj.ltF]
  swap := by
    rintro _ _ m n ⟨i, rfl⟩ ⟨j, rfl⟩ h1 h2
    simp only [Obj.cmp, Res.ok.injEq] at h1 h2
    subst h1; subst h2
    simp only [Obj.cmpF, Obj.ltF, decide_eq_true_eq]
    rcases lt_trichotomy i j with h | h | h
    · rw [if_neg (not_lt.mpr h.le), if_pos h, if_pos h]; rfl
    · subst h; simp
    · rw [if_pos h, if_neg (not_lt.mpr h.le), if_pos h]; rfl
  trans := by
    rintro _ _ _ m n k ⟨i, rfl⟩ ⟨j, rfl⟩ ⟨l, rfl⟩ h1 h2 h3 hm hn
    simp only [Obj.cmp, Res.ok.injEq] at h1 h2 h3
    subst h1; subst h2; subst h3
    simp only [Obj.cmpF, Obj.ltF, decide_eq_true_eq] at hm hn ⊢
    have hij : i ≤ j := by
      by_contra h
      rw [not_le] at h
      rw [if_neg (not_lt.mpr h.le), if_pos h] at hm; omega
    have hjl : j ≤ l := by
      by_contra h
      rw [not_le] at h
      rw [if_neg (not_lt.mpr h.le), if_pos h] at hn; omega
    rcases lt_or_eq_of_le (hij.trans hjl) with h | h
    · rw [if_pos h]; exact ⟨by omega, by omega⟩
    · subst h
      have : j = i := le_antisymm hjl hij
      subst this
      simp

theorem lexLt_trans : ∀ {a b c : Bytes}, Obj.lexLt a b → Obj.lexLt b c → Obj.lexLt a c
  | _, [], _, h, _ => by simp [Obj.lexLt] at h
  | _, _ :: _, [], _, h => by simp [Obj.lexLt] at h
  | [], _ :: _, _ :: _, _, _ => by simp [Obj.lexLt]
  | a :: as, b :: bs, c :: cs, h1, h2 => by
    simp only [Obj.lexLt] at h1 h2 ⊢
    rcases h1 with h1 | ⟨rfl, h1⟩
    · rcases h2 with h2 | ⟨rfl, h2⟩
      · left; omega
      · left; exact h1
    · rcases h2 with h2 | ⟨rfl, h2⟩
      · left; exact h2
      · right; exact ⟨rfl, lexLt_trans h1 h2⟩

theorem lexLt_irrefl : ∀ (a : Bytes), ¬ Obj.lexLt a a
  | [] => by simp [Obj.lexLt]
  | a :: as => by simp [Obj.lexLt, lexLt_irrefl as]

theorem lexLt_total : ∀ (a b : Bytes), Obj.lexLt a b ∨ a = b ∨ Obj.lexLt b a
  | [], [] => by simp
  | [], _ :: _ => by simp [Obj.lexLt]
  | _ :: _, [] => by simp [Obj.lexLt]
  | a :: as, b :: bs => by
    simp only [Obj.lexLt, List.cons.injEq]
    rcases Nat.lt_trichotomy a.toNat b.toNat with h | h | h
    · left; left; exact h
    · have : a = b := UInt8.toNat_inj.mp h
      subst this
      rcases lexLt_total as bs with g | g | g
      · left; right; exact ⟨rfl, g⟩
      · right; left; exact ⟨rfl, g⟩
      · right; right; right; exact ⟨rfl, g⟩
    · right; right; left; exact h

/-- **C11** a table is above every value that is neither nil nor a table, whichever side it is on, and tables are ordered by
address. -/
theorem C11_table (sc : Bytes → Bytes → Int) (a : Nat) (o : Obj) (h0 : o ≠ .nil) :
    ((∀ b, o ≠ .tab b) → Obj.cmp sc (.tab a) o = .ok 1 ∧ Obj.cmp sc o (.tab a) = .ok (-1)) ∧
    (∀ b, o = .tab b → ∃ m, Obj.cmp sc (.tab a) o = .ok m ∧ Obj.cmp sc o (.tab a) = .ok (-m) ∧ (m = 0 ↔ a = b)) := by
  refine ⟨fun h => ?_, ?_⟩
  · cases o <;> first
      | exact absurd rfl h0
      | exact absurd rfl (h _)
      | exact ⟨rfl, rfl⟩
  · rintro b rfl
    refine ⟨Obj.cmpI a b, rfl, ?_, ?_⟩
    · simp only [Obj.cmp, Obj.cmpI, Res.ok.injEq]
      split <;> split <;> (try split) <;> first | rfl | omega
    · unfold Obj.cmpI
      split <;> (try split) <;> omega

/-- A table against a number. -/
example : Obj.cmp (fun _ _ => 0) (.tab 7) (.int 9) = .ok 1 ∧ Obj.cmp (fun _ _ => 0) (.int 9) (.tab 7) = .ok (-1) := ⟨rfl, rfl⟩

/-- **C11** strings, for any `strcmp` that obeys the C standard. -/
theorem C11_string {sc : Bytes → Bytes → Int} (hsc : Obj.StrcmpLaw sc) : OrderLaws (Obj.cmp sc) IsStr where
  total := by rintro _ _ ⟨i, s, rfl, _⟩ ⟨j, t, rfl, _⟩; exact ⟨_, rfl⟩
  refl := by
    rintro _ ⟨i, s, rfl, hs⟩
    simp only [Obj.cmp, Res.ok.injEq]
    exact (hsc.zero s s hs hs).mpr rfl
  swap := by
    rintro _ _ m n ⟨i, s, rfl, hs⟩ ⟨j, t, rfl, ht⟩ h1 h2
    simp only [Obj.cmp, Res.ok.injEq] at h1 h2
    have z1 := hsc.zero s t hs ht
    have z2 := hsc.zero t s ht hs
    have n1 := hsc.neg s t hs ht
    have n2 := hsc.neg t s ht hs
    rw [h1] at z1 n1
    rw [h2] at z2 n2
    rcases lexLt_total s t with h | h | h
    · have a : m < 0 := n1.mpr h
      have b : ¬ n < 0 := fun h' => lexLt_irrefl _ (lexLt_trans h (n2.mp h'))
      have c : n ≠ 0 := fun h' => lexLt_irrefl _ ((z2.mp h') ▸ h)
      rw [Int.sign_eq_neg_one_of_neg a, Int.sign_eq_one_of_pos (by omega)]; rfl
    · rw [z1.mpr h, z2.mpr h.symm]; rfl
    · have a : n < 0 := n2.mpr h
      have b : ¬ m < 0 := fun h' => lexLt_irrefl _ (lexLt_trans h (n1.mp h'))
      have c : m ≠ 0 := fun h' => lexLt_irrefl _ ((z1.mp h') ▸ h)
      rw [Int.sign_eq_neg_one_of_neg a, Int.sign_eq_one_of_pos (by omega)]
  trans := by
    rintro _ _ _ m n k ⟨i, s, rfl, hs⟩ ⟨j, t, rfl, ht⟩ ⟨l, u, rfl, hu⟩ h1 h2 h3 hm hn
    simp only [Obj.cmp, Res.ok.injEq] at h1 h2 h3
    have z1 := hsc.zero s t hs ht
    have z2 := hsc.zero t u ht hu
    have z3 := hsc.zero s u hs hu
    have n1 := hsc.neg s t hs ht
    have n2 := hsc.neg t u ht hu
    have n3 := hsc.neg s u hs hu
    rw [h1] at z1 n1
    rw [h2] at z2 n2
    rw [h3] at z3 n3
    by_cases e1 : m = 0
    · have := z1.mp e1; subst this
      by_cases e2 : n = 0
      · have := z2.mp e2; subst this
        rw [z3.mpr rfl]; exact ⟨by omega, fun _ => ⟨e1, e2⟩⟩
      · have := n3.mpr (n2.mp (by omega)); exact ⟨by omega, by omega⟩
    · have l1 := n1.mp (by omega)
      by_cases e2 : n = 0
      · have := z2.mp e2; subst this
        have := n3.mpr l1; exact ⟨by omega, by omega⟩
      · have := n3.mpr (lexLt_trans l1 (n2.mp (by omega))); exact ⟨by omega, by omega⟩

theorem fmtD_length (i : Int) (h1 : -2147483648 ≤ i) (h2 : i ≤ 2147483647) : (Obj.fmtD i).length ≤ 11 := by
  have hd : (Nat.toDigits 10 i.natAbs).length ≤ 10 :=
    (Nat.length_toDigits_le_iff (by omega) (by omega)).mpr (by omega)
  unfold Obj.fmtD Obj.digits
  split <;> simp <;> omega

theorem print30_fmtD (i : Int) (h1 : -2147483648 ≤ i) (h2 : i ≤ 2147483647) :
    Obj.print30 (Obj.fmtD i) = .ok (Obj.fmtD i) := by
  have := fmtD_length i h1 h2
  simp only [Obj.print30]
  rw [if_pos (by omega)]

/-- **C11** a string is compared with an integer as a string with the printed integer, in both operand orders. -/
theorem C11_mixed (sc : Bytes → Bytes → Int) (sid : Nat) (s : Bytes) (i : Int) (h1 : -2147483648 ≤ i)
    (h2 : i ≤ 2147483647) :
    Obj.cmp sc (.str sid s) (.int i) = .ok (sc s (Obj.fmtD i)) ∧
    Obj.cmp sc (.int i) (.str sid s) = .ok (sc (Obj.fmtD i) s) := by
  constructor
  · simp [Obj.cmp, print30_fmtD i h1 h2]
  · simp [Obj.cmp, print30_fmtD i h1 h2]

/-- Comparing a string with a large float overflows the 30-character buffer, in both operand orders. -/
theorem C11_float_print_overflow (sc : Bytes → Bytes → Int) (sid : Nat) (s : Bytes) (q : ℚ) (hq : (10 : ℚ) ^ 22 ≤ q) :
    Obj.cmp sc (.str sid s) (.flt (.fin q)) = .ub ∧ Obj.cmp sc (.flt (.fin q)) (.str sid s) = .ub := by
  have hpos : (0 : ℚ) ≤ q := le_trans (by positivity) hq
  have hn : 10 ^ 28 ≤ (roundEven (|q| * 1000000)).toNat := by
    have h1 : (10 ^ 28 : ℤ) ≤ ⌊|q| * 1000000⌋ := by
      rw [Int.le_floor, abs_of_nonneg hpos]
      push_cast
      calc (10 : ℚ) ^ 28 = 10 ^ 22 * 1000000 := by norm_num
        _ ≤ _ := mul_le_mul_of_nonneg_right hq (by norm_num)
    have h2 : (10 ^ 28 : ℤ) ≤ roundEven (|q| * 1000000) := by
      simp only [roundEven]
      split
      · exact h1
      · split
        · omega
        · split <;> omega
    omega
  have hlen : 30 ≤ (Obj.fmtF (.fin q)).length := by
    simp only [Obj.fmtF, if_neg (not_lt.mpr hpos)]
    have hd : 23 ≤ (Obj.digits ((roundEven (|q| * 1000000)).toNat / 1000000)).length := by
      by_contra hc
      have : (Nat.toDigits 10 ((roundEven (|q| * 1000000)).toNat / 1000000)).length ≤ 22 := by
        simp only [Obj.digits, List.length_map] at hc; omega
      have := (Nat.length_toDigits_le_iff (by omega) (by omega)).mp this
      omega
    have hs : 6 ≤ (Obj.sixDigits ((roundEven (|q| * 1000000)).toNat % 1000000)).length := by
      simp only [Obj.sixDigits, List.length_append, List.length_replicate]; omega
    simp only [List.length_append, List.length_cons]
    omega
  have hp : Obj.print30 (Obj.fmtF (.fin q)) = .ub := by
    simp only [Obj.print30]
    rw [if_neg (by omega)]
  constructor
  · simp [Obj.cmp, hp]
  · simp [Obj.cmp, hp]

/-- Across types the comparison is not transitive: the integers 16777216 and 16777217 are both equal to the float
16777216.0 and different from each other. -/
theorem C11_not_transitive_int_float (sc : Bytes → Bytes → Int) :
    Obj.cmp sc (.int 16777217) (.flt (.fin 16777216)) = .ok 0 ∧
    Obj.cmp sc (.flt (.fin 16777216)) (.int 16777216) = .ok 0 ∧
    Obj.cmp sc (.int 16777217) (.int 16777216) = .ok 1 := by
  have h1 : toFlt ((16777216 : ℤ) : ℚ) = .fin 16777216 := by
    have := toFlt_isF32 (x := ((16777216 : ℤ) : ℚ)) ⟨1, 24, by norm_num, by norm_num, by norm_num, by norm_num⟩
    rw [this]; norm_num
  have hl : Int.log 2 |((16777217 : ℤ) : ℚ)| = 24 := by
    have : |((16777217 : ℤ) : ℚ)| = ((16777217 : ℕ) : ℚ) := by norm_num
    rw [this, Int.log_natCast]
    have : Nat.log 2 16777217 = 24 := by
      rw [Nat.log_eq_iff (by norm_num)]; norm_num
    rw [this]; rfl
  have hu : ulpExp ((16777217 : ℤ) : ℚ) = 1 := by unfold ulpExp; rw [hl]; norm_num
  have hf : ⌊((16777217 : ℤ) : ℚ) / 2 ^ (1 : ℤ)⌋ = 8388608 := by
    rw [Int.floor_eq_iff]; norm_num
  have hr : roundEven (((16777217 : ℤ) : ℚ) / 2 ^ (1 : ℤ)) = 8388608 := by
    unfold roundEven
    simp only [hf]
    rw [if_neg (by norm_num), if_neg (by norm_num), if_pos (by norm_num)]
  have h2 : toFlt ((16777217 : ℤ) : ℚ) = .fin 16777216 := by
    have : rnd ((16777217 : ℤ) : ℚ) = 16777216 := by
      unfold rnd
      rw [if_neg (by norm_num), hu, hr]; norm_num
    unfold toFlt
    rw [this, if_neg (by norm_num)]
  refine ⟨?_, ?_, rfl⟩
  · simp only [Obj.cmp, h2]; simp [Obj.cmpF, Obj.ltF]
  · simp only [Obj.cmp, h1]; simp [Obj.cmpF, Obj.ltF]

/-- **C11**, `buzzobj_eq`: on two integers, two finite floats, two tables or two userdata it says whether the comparison finds them
equal. -/
theorem C11_eq (sc : Bytes → Bytes → Int) (a b : Obj)
    (h : IsInt a ∧ IsInt b ∨ IsFloat a ∧ IsFloat b ∨ (∃ i j, a = .tab i ∧ b = .tab j) ∨ ∃ i j, a = .user i ∧ b = .user j) :
    Obj.eq a b = true ↔ Obj.cmp sc a b = .ok 0 := by
  have hc : ∀ x y : Int, Obj.cmpI x y = 0 ↔ x = y := by
    intro x y
    unfold Obj.cmpI
    split <;> [skip; split] <;> constructor <;> intro k <;> omega
  rcases h with ⟨⟨x, rfl⟩, ⟨y, rfl⟩⟩ | ⟨⟨x, rfl⟩, ⟨y, rfl⟩⟩ | ⟨x, y, rfl, rfl⟩ | ⟨x, y, rfl, rfl⟩
  · simp [Obj.eq, Obj.cmp, hc]
  · simp only [Obj.eq, Obj.cmp, Obj.cmpF, Obj.ltF]
    rcases lt_trichotomy x y with k | k | k
    · simp [k]
    · simp [k]
    · simp [k, not_lt.mpr k.le]
  · simp [Obj.eq, Obj.cmp, hc]
  · simp [Obj.eq, Obj.cmp, hc]

/-- Objects of different types are not equal for `buzzobj_eq`, although the integer 1 and the float 1.0 compare as equal. -/
theorem C11_eq_types (sc : Bytes → Bytes → Int) : Obj.eq (.int 1) (.flt (.fin 1)) = false ∧ Obj.cmp sc (.int 1) (.flt (.fin 1)) = .ok 0 := by
  refine ⟨rfl, ?_⟩
  show Res.ok (Obj.cmpF (F32.toFlt 1) (.fin 1)) = .ok 0
  decide +kernel

/-- **C11 fails** for `buzzobj_eq` on strings: no string is equal to itself. -/
theorem C11_eq_strings (i j : Nat) (s t : Bytes) : Obj.eq (.str i s) (.str j t) = false := rfl

/-- Nil is not comparable: the result 2 is not antisymmetric. -/
theorem C11_nil (sc : Bytes → Bytes → Int) (o : Obj) (h : o ≠ .nil) :
    Obj.cmp sc .nil o = .ok 2 ∧ Obj.cmp sc o .nil = .ok 2 := by
  cases o <;> simp_all [Obj.cmp]

example : IsStr (.str 4 [104, 105]) := ⟨4, _, rfl, by decide⟩
example : Obj.cmp Obj.strcmpDiff (.str 0 [49, 50]) (.int 12) = .ok 0 := by
  rw [(C11_mixed _ _ _ _ (by omega) (by omega)).1]; rfl
example : (10 : ℚ) ^ 22 ≤ 2 ^ 100 := by norm_num

/-! ## C13 -/

/-- A program on one table: assignments `t[k] = v`, where `none` is nil. -/
abbrev Assign (V : Type) := Obj × Option V

/-- Run the assignments. -/
def runAssign {V : Type} (sc : Bytes → Bytes → Int) : Table.Tbl V → List (Assign V) → Res (Table.Tbl V)
  | t, [] => .ok t
  | t, (k, v) :: r => do
    let t ← Table.put sc t k v
    runAssign sc t r

/-- What a table means: a function from keys to values; the last assignment to a key decides. -/
def meaning {V : Type} : (Obj → Option V) → List (Assign V) → Obj → Option V
  | f, [] => f
  | f, (k, v) :: r => meaning (fun x => if x = k then v else f x) r

theorem runAssign_spec {V : Type} {sc : Bytes → Bytes → Int} {S : Obj → Prop} (H : Table.Homog sc S) :
    ∀ (ops : List (Assign V)) (t : Table.Tbl V) (f : Obj → Option V), Dict.WF Table.hashN Table.eqd t →
      Table.Keys S t → (∀ x, S x → f x = ((Dict.entries t).find? (fun e => Table.eqd x e.1)).map (·.2)) →
      (∀ a ∈ ops, S a.1) →
      ∃ t', runAssign sc t ops = .ok t' ∧ Dict.WF Table.hashN Table.eqd t' ∧ Table.Keys S t' ∧
        ∀ x, S x → meaning f ops x = ((Dict.entries t').find? (fun e => Table.eqd x e.1)).map (·.2) := by
  intro ops
  induction ops with
  | nil => intro t f w hk hf _; exact ⟨t, rfl, w, hk, hf⟩
  | cons op ops ih =>
    intro t f w hk hf hops
    obtain ⟨k, v⟩ := op
    obtain ⟨t1, h1, w1, hk1, hp⟩ := Table.put_spec H w hk (hops _ (List.mem_cons_self ..)) v
    obtain ⟨t2, h2, w2, hk2, hf2⟩ := ih t1 (fun x => if x = k then v else f x) w1 hk1 (by
      intro x hx
      rw [find_perm Table.eqd_lawful (Dict.entries_uniq Table.eqd_lawful w1) hp x, List.find?_append,
        find_filter Table.eqd_lawful]
      by_cases hxk : x = k
      · subst hxk
        cases v <;> simp [Table.eqd]
      · have : Table.eqd x k = false := by simp [Table.eqd, hxk]
        rw [this]
        simp only [Bool.false_eq_true, if_false, if_neg hxk, hf x hx]
        cases v <;> simp [Table.eqd, hxk])
      (fun a ha => hops a (List.mem_cons_of_mem _ ha))
    exact ⟨t2, by simp [runAssign, h1, h2], w2, hk2, hf2⟩

/-- **C13** with homogeneous keys a table is a finite map under any sequence of assignments: nothing is undefined, every
read gives the last value assigned to that very key (nil if that was nil or there was none), and the size is the
number of keys that are not nil. -/
theorem C13_table_laws {V : Type} {sc : Bytes → Bytes → Int} {S : Obj → Prop} (H : Table.Homog sc S)
    (ops : List (Assign V)) (hops : ∀ a ∈ ops, S a.1) :
    ∃ t, runAssign sc Table.new ops = .ok t ∧
      (∀ k, S k → Table.get sc t k = .ok (meaning (fun _ => none) ops k)) ∧
      ∃ keys : List Obj, keys.Nodup ∧ t.size = keys.length % U32 ∧ (∀ k ∈ keys, S k) ∧
        ∀ k, S k → (k ∈ keys ↔ meaning (fun _ => none) ops k ≠ none) := by
  obtain ⟨t, h1, w, hk, hf⟩ := runAssign_spec H ops Table.new (fun _ => none) (Dict.new_wf (by omega))
    (by intro e he; simp [Table.new, Dict.entries_new] at he)
    (by intro x _; simp [Table.new, Dict.entries_new]) hops
  refine ⟨t, h1, ?_, (Dict.entries t).map (·.1), ?_, ?_, ?_, ?_⟩
  · intro k hS
    rw [Table.get_spec H w hk hS, hf k hS]
  · have := Dict.entries_uniq Table.eqd_lawful w
    rw [List.nodup_iff_pairwise_ne, List.pairwise_map]
    refine this.imp ?_
    intro a b h; simpa [Table.eqd] using h
  · rw [w.size_eq, List.length_map]
  · intro k hk'
    obtain ⟨e, he, rfl⟩ := List.mem_map.mp hk'
    exact hk e he
  · intro k hS
    rw [hf k hS, ne_eq, Option.map_eq_none_iff, List.find?_eq_none, List.mem_map]
    constructor
    · rintro ⟨e, he, rfl⟩ h
      exact h e he (by simp [Table.eqd])
    · intro h
      by_contra hc
      apply h
      intro e he hek
      simp only [Table.eqd, decide_eq_true_eq] at hek
      exact hc ⟨e, he, hek.symm⟩

/-- Integer keys are homogeneous. -/
theorem C13_int_keys (sc : Bytes → Bytes → Int) : Table.Homog sc IsInt where
  hash := by rintro _ ⟨i, rfl⟩; exact ⟨_, rfl⟩
  cmp := by
    rintro _ _ ⟨i, rfl⟩ ⟨j, rfl⟩
    refine ⟨_, rfl, ?_⟩
    unfold Obj.cmpI
    rw [Obj.int.injEq]
    split
    · constructor <;> intro <;> omega
    · split <;> constructor <;> intro <;> omega

/-- String keys are homogeneous, since a string has one id (C06). -/
theorem C13_string_keys {sc : Bytes → Bytes → Int} (hsc : Obj.StrcmpLaw sc) (id : Bytes → Nat) :
    Table.Homog sc (fun o => ∃ s, o = .str (id s) s ∧ Obj.CStr s) where
  hash := by rintro _ ⟨s, rfl, _⟩; exact ⟨_, rfl⟩
  cmp := by
    rintro _ _ ⟨s, rfl, hs⟩ ⟨t, rfl, ht⟩
    refine ⟨_, rfl, ?_⟩
    rw [hsc.zero s t hs ht]
    constructor
    · rintro rfl; rfl
    · intro h; rw [Obj.str.injEq] at h; exact h.2

/-- Mixed keys break the law: with string id 1 for `"1"`, writing `t["1"]` changes `t[1]`; with string id 2 it does not. -/
theorem C13_mixed_keys_collide :
    (do let t ← runAssign Obj.strcmpDiff Table.new [(Obj.int 1, some 100), (Obj.str 1 [49], some 200)]
        Table.get Obj.strcmpDiff t (.int 1)) = .ok (some 200) ∧
    (do let t ← runAssign Obj.strcmpDiff Table.new [(Obj.int 1, some 100), (Obj.str 2 [49], some 200)]
        Table.get Obj.strcmpDiff t (.int 1)) = .ok (some 100) := ⟨rfl, rfl⟩

/-- Not vacuous: three assignments, one of them an erasure, on integer keys one of which is negative. -/
example : ∃ t, runAssign Obj.strcmpDiff Table.new [(Obj.int (-7), some 1), (.int 3, some 2), (.int (-7), none)] = .ok t ∧
    Table.get Obj.strcmpDiff t (.int 3) = .ok (some 2) ∧ Table.get Obj.strcmpDiff t (.int (-7)) = .ok (none : Option Nat) := by
  obtain ⟨t, h, hg, _⟩ := C13_table_laws (C13_int_keys Obj.strcmpDiff)
    [(Obj.int (-7), some 1), (.int 3, some 2), (.int (-7), none)] (by
      intro a ha
      simp only [List.mem_cons, List.not_mem_nil, or_false] at ha
      rcases ha with rfl | rfl | rfl <;> exact ⟨_, rfl⟩)
  refine ⟨t, h, ?_, ?_⟩
  · rw [hg _ ⟨3, rfl⟩]; rfl
  · rw [hg _ ⟨-7, rfl⟩]; rfl

end Buzz.Props
