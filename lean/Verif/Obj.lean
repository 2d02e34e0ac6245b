import Verif.Msg

/-
Buzz values as seen by the comparison functions, src/buzz/buzztype.c.

A value is the content of a heap cell.  Tables, closures and user data appear by address.
-/
namespace Buzz

open Buzz.F32 Buzz.Msg

/-- `union buzzobj_u` (buzztype.h): the content of an object.  For strings `sid` is the string id and `s` the
registered characters.  For tables, closures and user data the number is the address compared by the code
(`t.value`, the object itself, `u.value`). -/
inductive Obj where
  | nil
  | int (v : Int)
  | flt (f : Flt)
  | str (sid : Nat) (s : Bytes)
  | tab (a : Nat)
  | clo (a : Nat)
  | user (p : Nat)
  deriving DecidableEq

namespace Obj

/-- Type codes (buzztype.h, `BUZZTYPE_*`). -/
def type : Obj → Nat
  | nil => 0
  | int _ => 1
  | flt _ => 2
  | str _ _ => 3
  | tab _ => 4
  | clo _ => 5
  | user _ => 6

/-- `a < b` on floats; false when an operand is NaN. -/
def ltF : Flt → Flt → Bool
  | .fin a, .fin b => decide (a < b)
  | .fin _, .inf n => !n
  | .inf n, .fin _ => n
  | .inf a, .inf b => a && !b
  | _, _ => false

/-- The three-way comparison pattern of lines 147-149 on floats. -/
def cmpF (a b : Flt) : Int := if ltF a b then -1 else if ltF b a then 1 else 0

/-- Decimal digits of a natural number as ASCII codes. -/
def digits (n : Nat) : Bytes := (Nat.toDigits 10 n).map (fun c => byte c.toNat)

/-- `sprintf("%d")`. -/
def fmtD (i : Int) : Bytes := if i < 0 then 45 :: digits i.natAbs else digits i.natAbs

/-- Six decimal digits, with leading zeros. -/
def sixDigits (n : Nat) : Bytes := List.replicate (6 - (digits n).length) 48 ++ digits n

/-- `sprintf("%f")`: six decimals, correctly rounded (ties to even).  Simplification: `-0.0` prints as `0.000000`. -/
def fmtF : Flt → Bytes
  | .fin q =>
    let n := (roundEven (|q| * 1000000)).toNat
    let body := digits (n / 1000000) ++ 46 :: sixDigits (n % 1000000)
    if q < 0 then 45 :: body else body
  | .inf neg => if neg then [45, 105, 110, 102] else [105, 110, 102]
  | .nan => [110, 97, 110]

/-- Printing into `char str[30]` (172, 177, 183, 188): more than 29 characters overflow the buffer. -/
def print30 (s : Bytes) : Res Bytes := if s.length + 1 ≤ 30 then .ok s else .ub

/-- Three-way comparison of numbers used for pointers (196-198, 210-212) and integers (147-149). -/
def cmpI (a b : Int) : Int := if a < b then -1 else if a > b then 1 else 0

/-- `buzzobj_cmp` (buzztype.c 136-217).  `strcmp` is the libc function; only the sign of its result is specified
by the C standard, so it is a parameter. -/
def cmp (strcmp : Bytes → Bytes → Int) : Obj → Obj → Res Int
  | nil, nil => .ok 0
  | nil, _ => .ok 2
  | _, nil => .ok 2
  | int a, int b => .ok (cmpI a b)
  | int a, flt b => .ok (cmpF (toFlt a) b)
  | flt a, int b => .ok (cmpF a (toFlt b))
  | flt a, flt b => .ok (cmpF a b)
  | str _ a, str _ b => .ok (strcmp a b)
  | str _ a, int b => do
    let s ← print30 (fmtD b)
    pure (strcmp a s)
  | str _ a, flt b => do
    let s ← print30 (fmtF b)
    pure (strcmp a s)
  | int a, str _ b => do
    let s ← print30 (fmtD a)
    pure (strcmp s b)
  | flt a, str _ b => do
    let s ← print30 (fmtF a)
    pure (strcmp s b)
  | tab a, tab b => .ok (cmpI a b)
  | tab _, _ => .ok 1
  | _, tab _ => .ok (-1)
  | user a, user b => .ok (cmpI a b)
  | _, _ => .abort

/-- `buzzobj_eq` (111-131).  A string is never equal to anything here (line 120).  Closures: the three fields
including the address of the activation record, hence the address of the object. -/
def eq : Obj → Obj → Bool
  | nil, nil => true
  | int a, int b => decide (a = b)
  | flt a, flt b => !ltF a b && !ltF b a && decide (a ≠ .nan) && decide (b ≠ .nan)
  | tab a, tab b => decide (a = b)
  | clo a, clo b => decide (a = b)
  | user a, user b => decide (a = b)
  | _, _ => false

/-- Cast of a float to `uint32_t`: undefined when the truncated value does not fit. -/
def toU32 : Flt → Res Nat
  | .fin q =>
    let t := if 0 ≤ q then ⌊q⌋ else ⌈q⌉
    if 0 ≤ t ∧ t < 4294967296 then .ok t.toNat else .ub
  | _ => .ub

/-- `buzzobj_table_hash` (16-32).  The remainder of a negative integer is negative and is converted to `uint32_t`. -/
def tableHash : Obj → Res Nat
  | int v => .ok (u32OfInt (v.tmod 10))
  | flt f => do
    let n ← toU32 f
    pure (n % 10)
  | str sid _ => .ok (sid % 10)
  | _ => .abort

/-- Lexicographic order on byte strings: the specification of the sign of `strcmp`. -/
def lexLt : Bytes → Bytes → Prop
  | _, [] => False
  | [], _ :: _ => True
  | a :: as, b :: bs => a.toNat < b.toNat ∨ (a = b ∧ lexLt as bs)

/-- A C string has no zero byte before its end. -/
def CStr (s : Bytes) : Prop := ∀ b ∈ s, b ≠ 0

instance (s : Bytes) : Decidable (CStr s) := by unfold CStr; infer_instance

/-- What the C standard says about `strcmp`. -/
structure StrcmpLaw (sc : Bytes → Bytes → Int) : Prop where
  zero : ∀ a b, CStr a → CStr b → (sc a b = 0 ↔ a = b)
  neg : ∀ a b, CStr a → CStr b → (sc a b < 0 ↔ lexLt a b)

/-- The usual `strcmp`: difference of the first differing bytes, counting the terminating zero. -/
def strcmpDiff : Bytes → Bytes → Int
  | [], [] => 0
  | [], b :: _ => -(b.toNat : Int)
  | a :: _, [] => (a.toNat : Int)
  | a :: as, b :: bs => if a = b then strcmpDiff as bs else (a.toNat : Int) - b.toNat

theorem toNat_pos {b : UInt8} (h : b ≠ 0) : 0 < b.toNat := by
  rcases Nat.eq_zero_or_pos b.toNat with h' | h'
  · exact absurd (UInt8.toNat_inj.mp (by simpa using h')) h
  · exact h'

/-- The usual `strcmp` obeys the standard. -/
theorem strcmpDiff_law : StrcmpLaw strcmpDiff where
  zero := by
    intro a
    induction a with
    | nil =>
      intro b _ hb
      cases b with
      | nil => simp [strcmpDiff]
      | cons y ys =>
        have := toNat_pos (hb y (List.mem_cons_self ..))
        simp [strcmpDiff]; omega
    | cons x xs ih =>
      intro b ha hb
      cases b with
      | nil =>
        have := toNat_pos (ha x (List.mem_cons_self ..))
        simp [strcmpDiff]; omega
      | cons y ys =>
        simp only [strcmpDiff]
        split
        · rename_i h; subst h
          rw [ih ys (fun b hm => ha b (List.mem_cons_of_mem _ hm)) (fun b hm => hb b (List.mem_cons_of_mem _ hm))]
          simp
        · rename_i h
          have : x.toNat ≠ y.toNat := fun e => h (UInt8.toNat_inj.mp e)
          simp [h]; omega
  neg := by
    intro a
    induction a with
    | nil =>
      intro b _ hb
      cases b with
      | nil => simp [strcmpDiff, lexLt]
      | cons y ys =>
        have := toNat_pos (hb y (List.mem_cons_self ..))
        simp [strcmpDiff, lexLt]; omega
    | cons x xs ih =>
      intro b ha hb
      cases b with
      | nil => simp [strcmpDiff, lexLt]
      | cons y ys =>
        simp only [strcmpDiff, lexLt]
        split
        · rename_i h; subst h
          rw [ih ys (fun b hm => ha b (List.mem_cons_of_mem _ hm)) (fun b hm => hb b (List.mem_cons_of_mem _ hm))]
          simp
        · rename_i h
          simp [h]

end Obj
end Buzz
