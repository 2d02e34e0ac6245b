import Verif.VMStep

/-
C12 (comparison operators), C37 (integer arithmetic), C38 (truth values), C39 (variables).

`At1 vm op`: a machine with valid memory that is ready and whose next instruction is `op`.  `Val vm 0 y` and `Val vm 1 x`: the top
of the stack is `y`, below it is `x`.  `Yields E F vm v`: the step replaces the two operands by one value `v`, changes nothing else
and goes on with the next instruction (or reports that there is none).
-/
namespace Buzz.Props

open Buzz.F32 Buzz.Msg Buzz.Heap Buzz.VM

/-- The step takes two operands and puts the value `v`. -/
def Yields (E : Env) (F : CFuns) (vm : VM) (v : Obj) : Prop :=
  ∃ vm', step E F vm = .ok vm' ∧ Replaced vm vm' 2 (.atom v) ∧ Next vm' (vm.pc + 1)

/-- The step takes one operand and puts the value `v`. -/
def Yields1 (E : Env) (F : CFuns) (vm : VM) (v : Obj) : Prop :=
  ∃ vm', step E F vm = .ok vm' ∧ Replaced vm vm' 1 (.atom v) ∧ Next vm' (vm.pc + 1)

/-! ### Concrete machines -/

/-- A host: little-endian, `strcmp` by byte difference. -/
def host : Env := ⟨Obj.strcmpDiff, fun _ _ => .nan, fun _ => 0, .little⟩

/-- No C functions. -/
def noFuns : CFuns := fun _ vm => .ok vm

theorem noFuns_ok : FOk noFuns := by
  intro n vm vm' i _ h
  simp only [noFuns, Res.ok.injEq] at h
  exact h ▸ i

/-- Run a script and return the value on top of the stack and the error. -/
def result (code : List UInt8) : Res (Option Obj × Err) := do
  let vm ← load host code VM.new
  let vm ← VM.run host noFuns 100 vm
  match vm.stack with
  | [] => pure (none, vm.error)
  | _ => do
    let o ← peek vm 1
    pure (some o, vm.error)

/-! ## C12 -/

/-- The integer 1 or 0. -/
def bit (p : Prop) [Decidable p] : Obj := .int (if p then 1 else 0)

theorem cmpV_int {E : Env} (p : Int → Bool) (a b : Int) :
    cmpV E p (.int a) (.int b) = some (.ok (ofBool (p (if a < b then -1 else if a > b then 1 else 0)))) := by
  unfold cmpV
  simp only [Obj.cmp, Obj.cmpI, Res.ok_bind, Res.pure_eq]
  congr 3
  split
  · simp
  · split <;> simp

/-- **C12** on two integers: each operator answers the mathematical comparison. -/
theorem C12_integers {E : Env} {F : CFuns} {vm : VM} {op : Bin} {a b : Int} (w : At1 vm (.bin op)) (ha : Val vm 1 (.int a)) (hb : Val vm 0 (.int b)) :
    (op = .lt → Yields E F vm (bit (a < b))) ∧ (op = .eq → Yields E F vm (bit (a = b))) ∧ (op = .gt → Yields E F vm (bit (b < a))) ∧
    (op = .lte → Yields E F vm (bit (a < b ∨ a = b))) ∧ (op = .gte → Yields E F vm (bit (b < a ∨ a = b))) ∧
    (op = .neq → Yields E F vm (bit (¬ a = b))) := by
  refine ⟨?_, ?_, ?_, ?_, ?_, ?_⟩ <;>
  · rintro rfl
    refine step_bin w ha hb ?_
    simp only [binV, cmpV_int]
    congr 2
    unfold ofBool bit
    rcases lt_trichotomy a b with h | h | h
    · simp [h, h.le, not_lt.mpr h.le, h.ne]
    · simp [h]
    · simp [h, h.le, not_lt.mpr h.le, h.ne']

/-- **C12** exactly one of `<`, `==`, `>` yields 1. -/
theorem C12_trichotomy (a b : Int) :
    (bit (a < b) = .int 1 ∧ bit (a = b) = .int 0 ∧ bit (b < a) = .int 0) ∨ (bit (a < b) = .int 0 ∧ bit (a = b) = .int 1 ∧ bit (b < a) = .int 0) ∨
    (bit (a < b) = .int 0 ∧ bit (a = b) = .int 0 ∧ bit (b < a) = .int 1) := by
  unfold bit
  rcases lt_trichotomy a b with h | h | h
  · left; simp [h, h.ne, h.le]
  · right; left; simp [h]
  · right; right; simp [h, h.ne', h.le]

/-- **C12** with exactly one nil operand every comparison, also `==` and `!=`, yields 1. -/
theorem C12_one_nil {E : Env} {F : CFuns} {vm : VM} {op : Bin} {x y : Obj} (hop : op ∈ [Bin.lt, .lte, .gt, .gte, .eq, .neq]) (w : At1 vm (.bin op))
    (hx : Val vm 1 x) (hy : Val vm 0 y) (hn : (x = .nil ∧ y ≠ .nil) ∨ (x ≠ .nil ∧ y = .nil)) : Yields E F vm (.int 1) := by
  refine step_bin w hx hy ?_
  have hc : Obj.cmp E.sc x y = .ok 2 := by
    rcases hn with ⟨rfl, h⟩ | ⟨h, rfl⟩
    · cases y <;> first | exact absurd rfl h | rfl
    · cases x <;> first | exact absurd rfl h | rfl
  simp only [List.mem_cons, List.not_mem_nil, or_false] at hop
  rcases hop with rfl | rfl | rfl | rfl | rfl | rfl <;> simp [binV, cmpV, hc, ofBool]

/-- **C12** two nils are equal. -/
theorem C12_both_nil {E : Env} {F : CFuns} {vm : VM} {op : Bin} (w : At1 vm (.bin op)) (hx : Val vm 1 .nil) (hy : Val vm 0 .nil) :
    (op ∈ [Bin.eq, .lte, .gte] → Yields E F vm (.int 1)) ∧ (op ∈ [Bin.neq, .lt, .gt] → Yields E F vm (.int 0)) := by
  constructor <;> intro hop <;> refine step_bin w hx hy ?_ <;> simp only [List.mem_cons, List.not_mem_nil, or_false] at hop <;>
    rcases hop with rfl | rfl | rfl <;> simp [binV, cmpV, Obj.cmp, ofBool]

/-- **C12** defect: a `strcmp` may return 2, and then two different strings are equal, as are a string and a number. -/
theorem C12_strcmp_two {E : Env} {F : CFuns} {vm : VM} {s t : Bytes} {i j : Nat} (w : At1 vm (.bin .eq)) (hx : Val vm 1 (.str i s)) (hy : Val vm 0 (.str j t))
    (h2 : E.sc s t = 2) : Yields E F vm (.int 1) := by
  refine step_bin w hx hy ?_
  simp [binV, cmpV, Obj.cmp, h2, ofBool]

/-- With byte differences: "c" == "a". -/
example : host.sc [99] [97] = 2 := by decide

/-- `3 < 4`, and `nil == 4`: the scripts `pushi 3; pushi 4; lt; done` and `pushnil; pushi 4; eq; done`. -/
example : result [0, 0, 36, 3, 0, 0, 0, 36, 4, 0, 0, 0, 26, 1] = .ok (some (.int 1), .none) ∧
    result [0, 0, 2, 36, 4, 0, 0, 0, 22, 1] = .ok (some (.int 1), .none) := by decide +kernel

/-! ## C37 -/

/-- **C37** `+`, `-`, `*`: the mathematical result if it fits in 32 bits, otherwise undefined. -/
theorem C37_add_sub_mul {E : Env} {F : CFuns} {vm : VM} {op : Bin} {a b r : Int} (w : At1 vm (.bin op)) (ha : Val vm 1 (.int a)) (hb : Val vm 0 (.int b))
    (hr : (op = .add ∧ r = a + b) ∨ (op = .sub ∧ r = a - b) ∨ (op = .mul ∧ r = a * b)) :
    (-2 ^ 31 ≤ r ∧ r < 2 ^ 31 → Yields E F vm (.int r)) ∧ (¬ (-2 ^ 31 ≤ r ∧ r < 2 ^ 31) → step E F vm = .ub) := by
  have key : binV E op (.int a) (.int b) = some (chk r) := by
    rcases hr with ⟨rfl, rfl⟩ | ⟨rfl, rfl⟩ | ⟨rfl, rfl⟩ <;> rfl
  constructor
  · intro h
    refine step_bin w ha hb ?_
    rw [key]; unfold chk
    rw [if_pos (by constructor <;> omega)]
  · intro h
    refine (step_bin_bad w ha hb).1 ?_
    rw [key]; unfold chk
    rw [if_neg (by omega)]

/-- **C37** `/`: the quotient rounded toward zero. -/
theorem C37_div {E : Env} {F : CFuns} {vm : VM} {a b : Int} (w : At1 vm (.bin .div)) (ha : Val vm 1 (.int a)) (hb : Val vm 0 (.int b)) (h0 : b ≠ 0)
    (hm : ¬ (a = -2 ^ 31 ∧ b = -1)) : ∃ q r, Yields E F vm (.int q) ∧ a = b * q + r ∧ r.natAbs < b.natAbs ∧ (0 ≤ a → 0 ≤ r) ∧ (a ≤ 0 → r ≤ 0) := by
  have ia : I32 a := by obtain ⟨x, c, _, h2, h3⟩ := ha; exact int_ok w.inv h2 a h3
  have hq : I32 (a.tdiv b) := by
    obtain ⟨i1, i2⟩ := ia
    have h1 : (a.tdiv b).natAbs = a.natAbs / b.natAbs := Int.natAbs_tdiv ..
    have hb1 : 1 ≤ b.natAbs := by omega
    have h2 : a.natAbs / b.natAbs ≤ a.natAbs := Nat.div_le_self ..
    by_cases hbm : b.natAbs = 1
    · rcases (by omega : b = 1 ∨ b = -1) with rfl | rfl
      · simpa using ⟨i1, i2⟩
      · rw [show a.tdiv (-1) = -a by simp [Int.tdiv_neg]]
        constructor <;> omega
    · have : a.natAbs / b.natAbs ≤ a.natAbs / 2 := Nat.div_le_div_left (by omega) (by omega)
      constructor <;> omega
  refine ⟨a.tdiv b, a.tmod b, step_bin w ha hb ?_, (Int.mul_tdiv_add_tmod a b).symm, ?_, ?_, ?_⟩
  · simp only [binV, arithV, divI, if_neg h0, chk]
    rw [if_pos (show -2147483648 ≤ a.tdiv b ∧ a.tdiv b ≤ 2147483647 from hq)]
  · rw [Int.natAbs_tmod]; exact Nat.mod_lt _ (by omega)
  · exact fun h => Int.tmod_nonneg _ h
  · intro h
    have := Int.tmod_nonneg (a := -a) b (by omega)
    rw [Int.neg_tmod] at this
    omega

/-- **C37** `%` with a positive divisor lies in `[0, b)` and is congruent to `a`. -/
theorem C37_mod {E : Env} {F : CFuns} {vm : VM} {a b : Int} (w : At1 vm (.bin .mod)) (ha : Val vm 1 (.int a)) (hb : Val vm 0 (.int b)) (h0 : 0 < b) :
    ∃ r q, Yields E F vm (.int r) ∧ 0 ≤ r ∧ r < b ∧ a = b * q + r := by
  have ib : I32 b := by obtain ⟨x, c, _, h2, h3⟩ := hb; exact int_ok w.inv h2 b h3
  have e := Int.mul_tdiv_add_tmod a b
  have l : (a.tmod b).natAbs < b.natAbs := by rw [Int.natAbs_tmod]; exact Nat.mod_lt _ (by omega)
  have hv : modV E (.int a) (.int b) = some (.ok (.int (if a.tmod b < 0 then a.tmod b + b else a.tmod b))) := by
    simp only [modV, modI]
    rw [if_neg (by omega), if_neg (by omega)]
    split
    · unfold chk; rw [if_pos (by obtain ⟨_, _⟩ := ib; constructor <;> omega)]
    · rfl
  by_cases hn : a.tmod b < 0
  · rw [if_pos hn] at hv
    exact ⟨a.tmod b + b, a.tdiv b - 1, step_bin w ha hb hv, by omega, by omega, by rw [Int.mul_sub]; omega⟩
  · rw [if_neg hn] at hv
    exact ⟨a.tmod b, a.tdiv b, step_bin w ha hb hv, by omega, by omega, e.symm⟩

/-- **C37** division and remainder by zero, and the smallest integer by -1, are undefined. -/
theorem C37_undefined {E : Env} {F : CFuns} {vm : VM} {op : Bin} {a b : Int} (w : At1 vm (.bin op)) (hop : op = .div ∨ op = .mod)
    (ha : Val vm 1 (.int a)) (hb : Val vm 0 (.int b)) (h : b = 0 ∨ (a = -2 ^ 31 ∧ b = -1)) : step E F vm = .ub := by
  refine (step_bin_bad w ha hb).1 ?_
  rcases hop with rfl | rfl <;> rcases h with rfl | ⟨rfl, rfl⟩ <;> simp [binV, arithV, divI, modV, modI, chk]

/-- Neither an integer nor a float. -/
def NoNumber (o : Obj) : Prop := (∀ v, o ≠ .int v) ∧ ∀ f, o ≠ .flt f

/-- **C37** an operand that is no number: a type error.  The operands of `+`, `-`, `*`, `/` stay in place, those of `%` and `^` are
removed. -/
theorem C37_type_error {E : Env} {F : CFuns} {vm : VM} {op : Bin} {x y : Obj} (w : At1 vm (.bin op))
    (hop : op ∈ [Bin.add, .sub, .mul, .div, .mod, .pow]) (hx : Val vm 1 x) (hy : Val vm 0 y) (hn : NoNumber x ∨ NoNumber y) :
    ∃ vm', step E F vm = .ok vm' ∧ Failed vm vm' .type ∧ Keeps vm vm' ∧ Rest vm vm' ∧
      vm'.stack = (if op ∈ [Bin.mod, .pow] then vm.stack.drop 2 else vm.stack) := by
  have hnum : num x = none ∨ num y = none := by
    rcases hn with ⟨h1, h2⟩ | ⟨h1, h2⟩
    · left; cases x <;> first | rfl | exact absurd rfl (h1 _) | exact absurd rfl (h2 _)
    · right; cases y <;> first | rfl | exact absurd rfl (h1 _) | exact absurd rfl (h2 _)
  have harith : ∀ fi ff, arithV fi ff x y = none := by
    intro fi ff
    unfold arithV
    split
    · simp [num] at hnum
    · rcases hnum with h | h
      · rw [h]
      · rw [h]; cases num x <;> rfl
  have hv : binV E op x y = none := by
    simp only [List.mem_cons, List.not_mem_nil, or_false] at hop
    rcases hop with rfl | rfl | rfl | rfl | rfl | rfl
    · exact harith _ _
    · exact harith _ _
    · exact harith _ _
    · exact harith _ _
    · show modV E x y = none
      unfold modV
      split <;> first | rfl | simp [num] at hnum
    · show powV E x y = none
      unfold powV
      rcases hnum with h | h
      · rw [h]
      · rw [h]; cases num x <;> rfl
  obtain ⟨vm', h1, h2, h3, h4, h5⟩ := step_bin_type (E := E) (F := F) w hx hy hv
  refine ⟨vm', h1, h2, h4, h5, ?_⟩
  rw [h3]
  simp only [List.mem_cons, List.not_mem_nil, or_false] at hop
  rcases hop with rfl | rfl | rfl | rfl | rfl | rfl <;> simp [binKeep]

/-- **C37** unary minus. -/
theorem C37_neg {E : Env} {F : CFuns} {vm : VM} {a : Int} (w : At1 vm (.un .unm)) (ha : Val vm 0 (.int a)) (hm : a ≠ -2 ^ 31) :
    Yields1 E F vm (.int (-a)) := by
  have ia : I32 a := by obtain ⟨x, c, _, h2, h3⟩ := ha; exact int_ok w.inv h2 a h3
  refine step_un w ha ?_
  simp only [unV, chk]
  obtain ⟨_, _⟩ := ia
  rw [if_pos (by constructor <;> omega)]

/-- **C37** with a negative divisor the remainder is not in the range of the divisor: `-7 % -3` is `-4`. -/
theorem C37_negative_divisor : ∃ a b : Int, b < 0 ∧ ∀ (E : Env) (F : CFuns) (vm : VM), At1 vm (.bin .mod) → Val vm 1 (.int a) → Val vm 0 (.int b) →
    ∃ r, Yields E F vm (.int r) ∧ ¬ (b < r) :=
  ⟨-7, -3, by decide, fun _ _ _ w ha hb => ⟨-4, step_bin w ha hb (by simp [binV, modV, modI, chk, show Int.tmod (-7) (-3) = -1 by decide]), by decide⟩⟩

/-- `-7 / 2`, `-7 % 2` and `-7 % -3` computed by the machine. -/
example : result [0, 0, 36, 249, 255, 255, 255, 36, 2, 0, 0, 0, 10, 1] = .ok (some (.int (-3)), .none) ∧
    result [0, 0, 36, 249, 255, 255, 255, 36, 2, 0, 0, 0, 11, 1] = .ok (some (.int 1), .none) ∧
    result [0, 0, 36, 249, 255, 255, 255, 36, 253, 255, 255, 255, 11, 1] = .ok (some (.int (-4)), .none) := by decide +kernel

/-! ## C38 -/

/-- The false values. -/
def IsFalse (o : Obj) : Prop := o = .nil ∨ o = .int 0

instance (o : Obj) : Decidable (IsFalse o) := by unfold IsFalse; infer_instance

theorem truth_iff (o : Obj) : truth o = false ↔ IsFalse o := by
  unfold truth IsFalse
  cases o <;> simp [Obj.type]

theorem truth_eq (o : Obj) : truth o = decide (¬ IsFalse o) := by
  by_cases h : IsFalse o
  · rw [(truth_iff o).mpr h]; simp [h]
  · cases k : truth o with
    | true => simp [h]
    | false => exact absurd ((truth_iff o).mp k) h

/-- **C38** `and`, `or`, `not`. -/
theorem C38_logic {E : Env} {F : CFuns} {vm : VM} {x y : Obj} :
    (At1 vm (.bin .land) → Val vm 1 x → Val vm 0 y → Yields E F vm (bit (¬ IsFalse x ∧ ¬ IsFalse y))) ∧
    (At1 vm (.bin .lor) → Val vm 1 x → Val vm 0 y → Yields E F vm (bit (¬ IsFalse x ∨ ¬ IsFalse y))) ∧
    (At1 vm (.un .lnot) → Val vm 0 x → Yields1 E F vm (bit (IsFalse x))) := by
  have tx := truth_eq x
  have ty := truth_eq y
  refine ⟨fun w hx hy => step_bin w hx hy ?_, fun w hx hy => step_bin w hx hy ?_, fun w hx => step_un w hx ?_⟩
  · simp [binV, tx, ty, ofBool, bit]
  · simp [binV, tx, ty, ofBool, bit]
  · simp [unV, tx, ofBool, bit]

/-- **C38** `jumpz` jumps exactly on the false values, `jumpnz` exactly on the others; otherwise execution goes on after the
argument. -/
theorem C38_jumps {E : Env} {F : CFuns} {vm : VM} {x : Obj} {t : Nat} (hx : Val vm 0 x) (ha : Arg E vm t) :
    (At1 vm .jumpz → ∃ vm', step E F vm = .ok vm' ∧ Keeps vm vm' ∧ Rest vm vm' ∧ Next vm' (if IsFalse x then intOfU32 t else vm.pc + 5) ∧
      (vm'.state = .ready → vm'.stack = vm.stack.drop 1)) ∧
    (At1 vm .jumpnz → ∃ vm', step E F vm = .ok vm' ∧ Keeps vm vm' ∧ Rest vm vm' ∧ Next vm' (if IsFalse x then vm.pc + 5 else intOfU32 t) ∧
      (vm'.state = .ready → vm'.stack = vm.stack.drop 1)) := by
  have tf := truth_iff x
  constructor
  · intro w
    obtain ⟨vm', h1, h2, h3, h4⟩ := step_jump (E := E) (F := F) (b := false) w hx ha
    refine ⟨vm', h1, h2, h3, ?_⟩
    by_cases h : IsFalse x
    · rw [if_pos (tf.mpr h)] at h4
      rw [if_pos h]; exact h4
    · rw [if_neg (fun k => h (tf.mp k))] at h4
      rw [if_neg h]; exact ⟨h4.1, fun _ => h4.2⟩
  · intro w
    obtain ⟨vm', h1, h2, h3, h4⟩ := step_jump (E := E) (F := F) (b := true) w hx ha
    refine ⟨vm', h1, h2, h3, ?_⟩
    by_cases h : IsFalse x
    · rw [if_neg (by rw [tf.mpr h]; simp)] at h4
      rw [if_pos h]; exact ⟨h4.1, fun _ => h4.2⟩
    · rw [if_pos (by cases k : truth x with | true => rfl | false => exact absurd (tf.mp k) h)] at h4
      rw [if_neg h]; exact h4

/-- **C38** `filter` keeps an entry exactly when the closure's result is not one of the false values (`none` is a nil result). -/
theorem C38_filter (o : Obj) : Hof.judge (fun v : Obj => decide (v = .int 0)) (if o = .nil then none else some o) = true ↔ ¬ IsFalse o := by
  unfold IsFalse
  by_cases h : o = .nil
  · simp [h, Hof.judge]
  · simp [h, Hof.judge]

/-- `not 0.0` is 0: a float zero is true.  And `0 or nil`. -/
example : result [0, 0, 35, 0, 0, 0, 0, 16, 1] = .ok (some (.int 0), .none) ∧
    result [0, 0, 36, 0, 0, 0, 0, 2, 15, 1] = .ok (some (.int 0), .none) := by decide +kernel

/-- `jumpz` over one instruction: `pushnil; jumpz L; pushi 7; done; L: pushi 8; done`. -/
example : result [0, 0, 2, 45, 14, 0, 0, 0, 36, 7, 0, 0, 0, 1, 36, 8, 0, 0, 0, 1] = .ok (some (.int 8), .none) ∧
    result [0, 0, 30, 45, 14, 0, 0, 0, 36, 7, 0, 0, 0, 1, 36, 8, 0, 0, 0, 1] = .ok (some (.int 7), .none) := by decide +kernel

/-! ## C39 -/

/-- **C39** storing a global: it then has the stored object as value; all other globals, the locals and the contents of all objects
are as before. -/
theorem C39_store_global {E : Env} {F : CFuns} {vm : VM} {sid a : Nat} {s : Bytes} (w : At1 vm .gstore) (hs : Val vm 1 (.str sid s))
    (ha : vm.stack[0]? = some a) (hp : vm.pc + 1 < vm.code.length) : ∃ vm', step E F vm = .ok vm' ∧ vm'.state = .ready ∧ vm'.pc = vm.pc + 1 ∧
      FMap.get vm'.gsyms sid = some a ∧ (∀ x, x ≠ sid → FMap.get vm'.gsyms x = FMap.get vm.gsyms x) ∧ vm'.frames = vm.frames ∧
      vm'.stack = vm.stack.drop 2 ∧ vm'.rest = vm.rest ∧ Keeps vm vm' := by
  obtain ⟨h', sm', h1, h2⟩ := step_gstore (E := E) (F := F) w hs ha hp
  refine ⟨_, h1, w.ready, rfl, by simp, fun x hx => ?_, rfl, rfl, rfl, h2⟩
  show FMap.get (FMap.set vm.gsyms sid a) x = _
  rw [FMap.get_set, if_neg hx]

/-- **C39** loading a global gives its object; a global never stored is nil.  No variable changes. -/
theorem C39_load_global {E : Env} {F : CFuns} {vm : VM} {sid : Nat} {s : Bytes} (w : At1 vm .gload) (hs : Val vm 0 (.str sid s))
    (hp : vm.pc + 1 < vm.code.length) : ∃ vm', step E F vm = .ok vm' ∧ vm'.state = .ready ∧ vm'.pc = vm.pc + 1 ∧ Keeps vm vm' ∧ Rest vm vm' ∧
      (∀ a, FMap.get vm.gsyms sid = some a → vm'.stack = a :: vm.stack.drop 1) ∧
      (FMap.get vm.gsyms sid = none → ∃ a, vm'.stack = a :: vm.stack.drop 1 ∧ Holds vm'.heap a (.atom .nil)) := by
  obtain ⟨vm', h1, h2, h3, h4, h5, h6, h7⟩ := step_gload (E := E) (F := F) w hs hp
  exact ⟨vm', h1, h5, h4, h2, h3, h6, fun h => (h7 h).stack⟩

/-- **C39** a load after a store, with anything in between that leaves the global in place, gives the stored object. -/
theorem C39_global_roundtrip {E : Env} {F : CFuns} {vm u : VM} {sid a : Nat} {s t : Bytes} (w : At1 vm .gstore) (hs : Val vm 1 (.str sid s))
    (ha : vm.stack[0]? = some a) (hp : vm.pc + 1 < vm.code.length) (w2 : At1 u .gload) (hs2 : Val u 0 (.str sid t)) (hp2 : u.pc + 1 < u.code.length)
    (hbetween : ∀ vm', step E F vm = .ok vm' → FMap.get u.gsyms sid = FMap.get vm'.gsyms sid) :
    ∃ u', step E F u = .ok u' ∧ u'.stack = a :: u.stack.drop 1 := by
  obtain ⟨vm', h1, _, _, h4, _⟩ := C39_store_global (E := E) (F := F) w hs ha hp
  obtain ⟨u', g1, _, _, _, _, g6, _⟩ := C39_load_global (E := E) (F := F) w2 hs2 hp2
  exact ⟨u', g1, g6 a (by rw [hbetween vm' h1, h4])⟩

/-- **C39** storing a local inside a function: the slot then has the stored object, all other slots, the callers' locals, the globals
and the contents of all objects are as before. -/
theorem C39_store_local {E : Env} {F : CFuns} {vm : VM} {idx a : Nat} {f : Frame} {fs : List Frame} (w : At1 vm .lstore) (hi : Arg E vm idx)
    (hf : vm.frames = f :: fs) (hs : vm.stack[0]? = some a) (hl : idx ≤ f.syms.length) : ∃ vm' f', step E F vm = .ok vm' ∧ vm'.state = .ready ∧
      vm'.pc = vm.pc + 5 ∧ vm'.frames = f' :: fs ∧ f'.syms[idx]? = some a ∧ (∀ x, x ≠ idx → f'.syms[x]? = f.syms[x]?) ∧ f'.swarm = f.swarm ∧
      vm'.gsyms = vm.gsyms ∧ vm'.stack = vm.stack.drop 1 ∧ vm'.rest = vm.rest ∧ Keeps vm vm' := by
  obtain ⟨h', sm', h1, h2⟩ := step_lstore (E := E) (F := F) w hi hf hs hl
  refine ⟨_, _, h1, w.ready, rfl, rfl, ?_, ?_, rfl, rfl, rfl, rfl, h2⟩
  · show (storeSym f.syms idx a)[idx]? = some a
    unfold storeSym
    split
    · rename_i h; simp [h]
    · have : idx = f.syms.length := by omega
      simp [this]
  · intro x hx
    show (storeSym f.syms idx a)[x]? = _
    unfold storeSym
    split
    · exact List.getElem?_set_ne (Ne.symm hx)
    · have : idx = f.syms.length := by omega
      by_cases hlt : x < f.syms.length
      · rw [List.getElem?_append_left hlt]
      · rw [List.getElem?_eq_none (l := f.syms) (by omega), List.getElem?_eq_none]
        simp; omega

/-- **C39** loading a local gives the object in its slot; a slot beyond the end is an error. -/
theorem C39_load_local {E : Env} {F : CFuns} {vm : VM} {idx : Nat} {f : Frame} {fs : List Frame} (w : At1 vm .lload) (hi : Arg E vm idx)
    (hf : vm.frames = f :: fs) : ∃ vm', step E F vm = .ok vm' ∧ Keeps vm vm' ∧ Rest vm vm' ∧ vm'.pc = vm.pc + 5 ∧
      (∀ a, f.syms[idx]? = some a → vm'.state = .ready ∧ vm'.stack = a :: vm.stack) ∧
      (f.syms[idx]? = none → vm'.state = .error ∧ vm'.error = .lnum ∧ vm'.stack = vm.stack) := step_lload w hi hf

/-- The script with strings "x", "y": `x = 5; y = 6`, then load `x`; and load of the never stored "y". -/
example : result [2, 0, 120, 0, 121, 0, 37, 0, 0, 0, 0, 36, 5, 0, 0, 0, 29, 37, 1, 0, 0, 0, 36, 6, 0, 0, 0, 29, 37, 0, 0, 0, 0, 28, 1] =
      .ok (some (.int 5), .none) ∧
    result [2, 0, 120, 0, 121, 0, 37, 0, 0, 0, 0, 36, 5, 0, 0, 0, 29, 37, 1, 0, 0, 0, 28, 1] = .ok (some .nil, .none) := by decide +kernel

/-- The hypotheses hold of a machine that runs `pushi 3; pushi 4; add; done`: after two steps the next instruction is `add` with both
operands in place. -/
example : ∃ vm, At1 vm (.bin .add) ∧ Val vm 1 (.int 3) ∧ Val vm 0 (.int 4) := by
  have h : load host [0, 0, 36, 3, 0, 0, 0, 36, 4, 0, 0, 0, 7, 1] VM.new =
      .ok { VM.new with code := [0, 0, 36, 3, 0, 0, 0, 36, 4, 0, 0, 0, 7, 1], pc := 2, state := .ready } := rfl
  obtain ⟨i, hs, _, h0, _⟩ := load_inv (by decide) (fun n hn => by cases hn; decide) h
  have o1 := step_out (E := host) noFuns_ok i (fun _ => ⟨by decide, by decide⟩)
  have e1 : step host noFuns { VM.new with code := [0, 0, 36, 3, 0, 0, 0, 36, 4, 0, 0, 0, 7, 1], pc := 2, state := .ready } = .ok
      { VM.new with code := [0, 0, 36, 3, 0, 0, 0, 36, 4, 0, 0, 0, 7, 1], pc := 7, state := .ready, stack := [0], heap := ⟨[(0, ⟨0, .atom (.int 3)⟩)], 0, 1, 1⟩ } := rfl
  rw [e1] at o1
  have o2 := step_out (E := host) noFuns_ok o1.1 (fun _ => ⟨by decide, by decide⟩)
  generalize e2 : step host noFuns { VM.new with code := [0, 0, 36, 3, 0, 0, 0, 36, 4, 0, 0, 0, 7, 1], pc := 7, state := .ready, stack := [0], heap := ⟨[(0, ⟨0, .atom (.int 3)⟩)], 0, 1, 1⟩ } = r at o2
  have e3 := e2
  cases r with
  | ok v =>
    have : v = _ := (Res.ok.inj e2).symm
    subst this
    exact ⟨_, ⟨o2.1, rfl, ⟨by decide, by decide⟩, 7, rfl, rfl⟩, ⟨0, _, rfl, ⟨_, rfl, rfl⟩, rfl⟩, ⟨1, _, rfl, ⟨_, rfl, rfl⟩, rfl⟩⟩
  | ub => cases e2
  | abort => cases e2
  | hang => cases e2

end Buzz.Props
