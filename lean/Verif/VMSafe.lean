import Verif.VMInv

/-
Every outcome of a step: the invariant is kept, and undefined behaviour, program exit and non-termination have the listed causes.
-/
namespace Buzz.VM

open Buzz.F32 Buzz.Msg Buzz.Heap Buzz.Props

/-! ### Specification -/

/-- Abnormal outcomes: undefined behaviour, `exit`, non-termination. -/
inductive Bad where
  | ub | abort | hang
  deriving DecidableEq

/-- A computation that ends normally with `Q` or abnormally with `C`. -/
def Outcome {α : Type} (Q : α → Prop) (C : Bad → Prop) : Res α → Prop
  | .ok v => Q v
  | .ub => C .ub
  | .abort => C .abort
  | .hang => C .hang

/-- The stack element `i` (0 is the top) has value `o`. -/
def Val (vm : VM) (i : Nat) (o : Obj) : Prop := ∃ a c, vm.stack[i]? = some a ∧ Holds vm.heap a c ∧ objOf a c = o

/-- The stack element `i` (0 is the top) is this cell. -/
def At (vm : VM) (i : Nat) (c : Cell) : Prop := ∃ a, vm.stack[i]? = some a ∧ Holds vm.heap a c

/-- The text of a float (`%f`) does not fit in 30 bytes. -/
def LongText (f : Flt) : Prop := 30 ≤ (Obj.fmtF f).length

/-- `b` is a comparison instruction. -/
def IsCmp (b : Bin) : Prop := b = .eq ∨ b = .neq ∨ b = .gt ∨ b = .gte ∨ b = .lt ∨ b = .lte

/-- Operands on which a binary instruction is undefined. -/
inductive UndefBin : Bin → Obj → Obj → Prop where
  | add {a b : Int} : ¬ I32 (a + b) → UndefBin .add (.int a) (.int b)
  | sub {a b : Int} : ¬ I32 (a - b) → UndefBin .sub (.int a) (.int b)
  | mul {a b : Int} : ¬ I32 (a * b) → UndefBin .mul (.int a) (.int b)
  | div0 {a : Int} : UndefBin .div (.int a) (.int 0)
  | divMin : UndefBin .div (.int (-2147483648)) (.int (-1))
  | mod0 {a : Int} : UndefBin .mod (.int a) (.int 0)
  | modMin : UndefBin .mod (.int (-2147483648)) (.int (-1))
  | modNeg {a b : Int} : a < 0 → b < -1073741824 → UndefBin .mod (.int a) (.int b)
  | shl {a b : Int} : (a < 0 ∨ b < 0 ∨ 32 ≤ b ∨ ¬ I32 (a * 2 ^ b.toNat)) → UndefBin .shl (.int a) (.int b)
  | shr {a b : Int} : (b < 0 ∨ 32 ≤ b) → UndefBin .shr (.int a) (.int b)
  | textR {b : Bin} {i : Nat} {s : Bytes} {f : Flt} : IsCmp b → LongText f → UndefBin b (.str i s) (.flt f)
  | textL {b : Bin} {i : Nat} {s : Bytes} {f : Flt} : IsCmp b → LongText f → UndefBin b (.flt f) (.str i s)

/-- Closures and user data. -/
def Opaque : Obj → Prop
  | .clo _ => True
  | .user _ => True
  | _ => False

/-- Operands whose comparison exits the program: none is nil or a table, one is a closure or user data, and they are not both user
data. -/
def NoCmp (a b : Obj) : Prop :=
  a.type ≠ 0 ∧ b.type ≠ 0 ∧ a.type ≠ 4 ∧ b.type ≠ 4 ∧ (Opaque a ∨ Opaque b) ∧ ¬ (a.type = 6 ∧ b.type = 6)

/-- A float that cannot be converted to `uint32_t`. -/
def NoU32 : Flt → Prop
  | .fin q => q ≤ -1 ∨ 4294967296 ≤ q
  | _ => True

/-- Why the instruction `op` executed by `vm` may end abnormally. -/
inductive Cause (E : Env) (F : CFuns) (vm : VM) : Op → Bad → Prop where
  /-- undefined arithmetic, shift, or text conversion in a comparison -/
  | undef {b : Bin} {x y : Obj} : Val vm 1 x → Val vm 0 y → UndefBin b x y → Cause E F vm (.bin b) .ub
  /-- a comparison the language does not have -/
  | nocmp {b : Bin} {x y : Obj} : IsCmp b → Val vm 1 x → Val vm 0 y → NoCmp x y → Cause E F vm (.bin b) .abort
  | neg : Val vm 0 (.int (-2147483648)) → Cause E F vm (.un .unm) .ub
  /-- a float key that is no `uint32_t` -/
  | putKey {f : Flt} : Val vm 1 (.flt f) → NoU32 f → Cause E F vm .tput .ub
  | getKey {f : Flt} : Val vm 0 (.flt f) → NoU32 f → Cause E F vm .tget .ub
  /-- a table read with a key that is neither number nor string -/
  | badKey {t : Table.Tbl (Nat × Nat)} {k : Obj} : At vm 1 (.tab t) → Val vm 0 k → isKey k = false → Cause E F vm .tget .ub
  /-- a return or access to local symbols outside any function -/
  | outside {op : Op} : vm.frames = [] → op ∈ [Op.ret0, .ret1, .lload, .lstore, .lremove] → Cause E F vm op .ub
  /-- a store beyond the next free local symbol -/
  | gap {idx : Nat} {f : Frame} {fs : List Frame} : rd32 E.endian vm.code (vm.pc.toNat + 1) = .ok idx → vm.frames = f :: fs →
      f.syms.length < idx → Cause E F vm .lstore .ub
  /-- a call with a negative or maximal number of arguments -/
  | argn {n : Int} {op : Op} : op ∈ [Op.callc, .calls] → Val vm 0 (.int n) → (n < 0 ∨ n = 2147483647) → Cause E F vm op .ub
  /-- a call of a C closure with a negative function number -/
  | cref {n : Nat} {r : Int} {l : List Nat} {op : Op} : op ∈ [Op.callc, .calls] → Val vm 0 (.int n) → At vm (n + 1) (.clo false r l) →
      r < 0 → Cause E F vm op .ub
  /-- the outcome of the called C function -/
  | cfun {n : Nat} {r : Nat} {l : List Nat} {op : Op} {b : Bad} {vm' : VM} : op ∈ [Op.callc, .calls] → Val vm 0 (.int n) →
      At vm (n + 1) (.clo false r l) → VInv vm' → Outcome (fun _ => False) (· = b) (F r vm') → Cause E F vm op b

/-- The program counter is inside the bytecode. -/
def PcIn (vm : VM) : Prop := 0 ≤ vm.pc ∧ vm.pc < vm.code.length

/-- The C functions keep the memory invariant. -/
def FOk (F : CFuns) : Prop := ∀ n vm vm', VInv vm → vm.state = .ready → F n vm = .ok vm' → VInv vm'

/-! ### Rules -/

theorem Outcome.bind {α β : Type} {Q : α → Prop} {Q' : β → Prop} {C : Bad → Prop} {r : Res α} {k : α → Res β} (h : Outcome Q C r)
    (hk : ∀ v, Q v → Outcome Q' C (k v)) : Outcome Q' C (r >>= k) := by
  cases r with
  | ok v => exact hk v h
  | ub => exact h
  | abort => exact h
  | hang => exact h

theorem Outcome.mono {α : Type} {Q Q' : α → Prop} {C C' : Bad → Prop} {r : Res α} (h : Outcome Q C r) (hq : ∀ v, Q v → Q' v)
    (hc : ∀ b, C b → C' b) : Outcome Q' C' r := by
  cases r with
  | ok v => exact hq v h
  | ub => exact hc _ h
  | abort => exact hc _ h
  | hang => exact hc _ h

theorem Outcome.self {α : Type} (r : Res α) : Outcome (fun v => r = .ok v) (fun b => Outcome (fun _ => False) (· = b) r) r := by
  cases r <;> first | exact rfl | trivial

theorem need_rule {vm : VM} {n : Nat} {Q : VM → Prop} {C : Bad → Prop} {k : Res VM} (he : Q (setErr vm .stack))
    (hk : n ≤ vm.stack.length → Outcome Q C k) : Outcome Q C (need vm (n : Int) k) := by
  unfold need
  split
  · exact he
  · exact hk (by omega)

/-- Reading a stack element that exists. -/
theorem peek_ok {vm : VM} (i : VInv vm) {n : Nat} (h : n < vm.stack.length) :
    ∃ a c, vm.stack[n]? = some a ∧ Holds vm.heap a c ∧ peekAddr vm (n + 1 : Nat) = .ok a ∧ peekCell vm (n + 1 : Nat) = .ok c ∧
      peek vm (n + 1 : Nat) = .ok (objOf a c) := by
  have h1 : vm.stack[n]? = some vm.stack[n] := List.getElem?_eq_getElem h
  obtain ⟨c, m, h2, h3⟩ := i.stack _ (List.getElem_mem h)
  have hp : peekAddr vm (n + 1 : Nat) = .ok vm.stack[n] := by
    unfold peekAddr
    rw [if_pos (by omega)]
    have : ((n + 1 : Nat) : Int).toNat - 1 = n := by omega
    rw [this, h1]
  have hd : deref vm.heap vm.stack[n] = .ok m := by unfold deref; rw [h2]
  exact ⟨_, c, h1, ⟨m, h2, h3⟩, hp, by simp only [peekCell, hp, hd, h3, Res.ok_bind, Res.pure_eq],
    by simp only [peek, hp, hd, h3, Res.ok_bind, Res.pure_eq]⟩

theorem rd_ok {buf : Bytes} {i : Nat} (h : i < buf.length) : ∃ n, rd buf i = .ok n ∧ n < 256 := by
  unfold rd
  rw [List.getElem?_eq_getElem h]
  exact ⟨_, rfl, UInt8.toNat_lt _⟩

theorem rd32_ok {h : Endian} {buf : Bytes} {i : Nat} (hi : i + 3 < buf.length) : ∃ n, rd32 h buf i = .ok n ∧ n < 4294967296 := by
  obtain ⟨a, h1, k1⟩ := rd_ok (buf := buf) (i := i) (by omega)
  obtain ⟨b, h2, k2⟩ := rd_ok (buf := buf) (i := i + 1) (by omega)
  obtain ⟨c, h3, k3⟩ := rd_ok (buf := buf) (i := i + 2) (by omega)
  obtain ⟨d, h4, k4⟩ := rd_ok (buf := buf) (i := i + 3) (by omega)
  cases h
  · refine ⟨a + 256 * b + 65536 * c + 16777216 * d, ?_, by omega⟩
    simp [rd32, h1, h2, h3, h4]
  · refine ⟨d + 256 * c + 65536 * b + 16777216 * a, ?_, by omega⟩
    simp [rd32, h1, h2, h3, h4]

/-- The normal outcome of an instruction. -/
def Fine (v : VM) : Prop := VInv v ∧ (v.state = .ready → PcIn v)

theorem fine_err {vm : VM} (i : VInv vm) (e : Err) : Fine (setErr vm e) := ⟨i.setErr e, fun h => by cases h⟩

theorem assertPc_rule {vm : VM} {C : Bad → Prop} {k : VM → Res VM} (i : VInv vm) (hk : PcIn vm → Outcome Fine C (k vm)) :
    Outcome Fine C (assertPc vm k) := by
  unfold assertPc
  split
  · exact fine_err i _
  · rename_i h
    exact hk ⟨by omega, by omega⟩

theorem incPc_rule {vm : VM} {C : Bad → Prop} {k : VM → Res VM} (i : VInv vm) (p : PcIn vm)
    (hk : PcIn { vm with pc := vm.pc + 1 } → VInv { vm with pc := vm.pc + 1 } → Outcome Fine C (k { vm with pc := vm.pc + 1 })) :
    Outcome Fine C (incPc vm k) := by
  have hr : I32 (vm.pc + 1) := by
    have := i.size
    have := p.1
    have := p.2
    constructor <;> omega
  have j : VInv { vm with pc := vm.pc + 1 } := i.setPc hr
  exact assertPc_rule j (fun q => hk q j)

theorem getArg_rule {E : Env} {vm : VM} {C : Bad → Prop} {k : VM → Nat → Res VM} (i : VInv vm) (p : PcIn vm)
    (hk : ∀ a, a < 4294967296 → rd32 E.endian vm.code vm.pc.toNat = .ok a → PcIn { vm with pc := vm.pc + 4 } → VInv { vm with pc := vm.pc + 4 } →
      Outcome Fine C (k { vm with pc := vm.pc + 4 } a)) : Outcome Fine C (getArg E vm k) := by
  unfold getArg
  split
  · exact fine_err i _
  · rename_i h
    have h0 := p.1
    obtain ⟨a, h1, h2⟩ := rd32_ok (h := E.endian) (buf := vm.code) (i := vm.pc.toNat) (by omega)
    have hr : I32 (vm.pc + 4) := by
      have := i.size
      constructor <;> omega
    rw [h1]
    exact hk a h2 h1 ⟨by show 0 ≤ vm.pc + 4; omega, by show vm.pc + 4 < vm.code.length; omega⟩ (i.setPc hr)

theorem pure_rule {vm : VM} {C : Bad → Prop} (i : VInv vm) (p : PcIn vm) : Outcome Fine C (pure vm : Res VM) := ⟨i, fun _ => p⟩

/-! ### Values -/

theorem chk_out {C : Bad → Prop} {x : Int} (h : ¬ I32 x → C .ub) : Outcome (fun o => CellOk hp sm (.atom o)) C (chk x) := by
  unfold chk
  split
  · rename_i k; exact k
  · rename_i k; exact h k

theorem print_out {C : Bad → Prop} {s : Bytes} (h : 30 ≤ s.length → C .ub) : Outcome (fun x => x = s) C (Obj.print30 s) := by
  unfold Obj.print30
  split
  · exact rfl
  · exact h (by omega)

/-- The outcomes of a comparison. -/
theorem cmp_out {C : Bad → Prop} (sc : Bytes → Bytes → Int) (a b : Obj) (ha : ∀ v, a = .int v → I32 v) (hb : ∀ v, b = .int v → I32 v)
    (h1 : ∀ i s f, a = .str i s → b = .flt f → LongText f → C .ub) (h2 : ∀ i s f, a = .flt f → b = .str i s → LongText f → C .ub)
    (h3 : NoCmp a b → C .abort) : Outcome (fun _ => True) C (Obj.cmp sc a b) := by
  cases a <;> cases b <;> first
    | trivial
    | exact h3 (by simp [NoCmp, Obj.type, Opaque])
    | skip
  · rename_i v i s
    have h := fmtD_length v (ha v rfl).1 (ha v rfl).2
    exact (print_out (s := Obj.fmtD v) (by omega)).bind (fun _ _ => trivial)
  · rename_i f i s
    exact (print_out (s := Obj.fmtF f) (fun h => h2 i s f rfl rfl h)).bind (fun _ _ => trivial)
  · rename_i i s v
    have h := fmtD_length v (hb v rfl).1 (hb v rfl).2
    exact (print_out (s := Obj.fmtD v) (by omega)).bind (fun _ _ => trivial)
  · rename_i i s f
    exact (print_out (s := Obj.fmtF f) (fun h => h1 i s f rfl rfl h)).bind (fun _ _ => trivial)

theorem tmod_lt_abs (a b : Int) (h : b ≠ 0) : (a.tmod b).natAbs < b.natAbs := by
  rw [Int.natAbs_tmod]
  exact Nat.mod_lt _ (by omega)

/-- The outcomes of the operation of a binary instruction. -/
theorem binV_out {C : Bad → Prop} {hp : Heap} {sm : Strman.SM Bytes} (E : Env) (b : Bin) (x y : Obj) (hx : ∀ v, x = .int v → I32 v)
    (hy : ∀ v, y = .int v → I32 v) (h1 : UndefBin b x y → C .ub) (h2 : IsCmp b → NoCmp x y → C .abort) :
    ∀ r, binV E b x y = some r → Outcome (fun o => CellOk hp sm (.atom o)) C r := by
  intro r hr
  have hcmp : ∀ p : Int → Bool, IsCmp b → Outcome (fun o => CellOk hp sm (.atom o)) C (do
      let c ← Obj.cmp E.sc x y
      pure (ofBool (decide (c = 2) || p c))) := by
    intro p hb
    refine (cmp_out E.sc x y hx hy ?_ ?_ (h2 hb)).bind ?_
    · rintro i s f rfl rfl h; exact h1 (.textR hb h)
    · rintro i s f rfl rfl h; exact h1 (.textL hb h)
    · intro v _
      show I32 _
      split <;> constructor <;> omega
  have harith : ∀ (fi : Int → Int → Res Obj) (ff : Flt → Flt → Flt), arithV fi ff x y = some r →
      (∀ v w, x = .int v → y = .int w → Outcome (fun o => CellOk hp sm (.atom o)) C (fi v w)) →
      Outcome (fun o => CellOk hp sm (.atom o)) C r := by
    intro fi ff h hi
    cases x <;> cases y <;> simp only [arithV, num, Option.some.injEq, reduceCtorEq] at h <;> subst h <;> first
      | trivial
      | exact hi _ _ rfl rfl
  have hbit : ∀ (f : Int → Int → Res Obj), bitV f x y = some r →
      (∀ v w, x = .int v → y = .int w → Outcome (fun o => CellOk hp sm (.atom o)) C (f v w)) →
      Outcome (fun o => CellOk hp sm (.atom o)) C r := by
    intro f h hi
    cases x <;> cases y <;> simp only [bitV, Option.some.injEq, reduceCtorEq] at h <;> subst h
    exact hi _ _ rfl rfl
  have hbool : ∀ t : Bool, CellOk hp sm (.atom (ofBool t)) := by
    intro t
    show I32 _
    split <;> constructor <;> omega
  cases b with
  | add =>
    refine harith _ _ hr ?_
    rintro v w rfl rfl
    exact chk_out (fun h => h1 (.add h))
  | sub =>
    refine harith _ _ hr ?_
    rintro v w rfl rfl
    exact chk_out (fun h => h1 (.sub h))
  | mul =>
    refine harith _ _ hr ?_
    rintro v w rfl rfl
    exact chk_out (fun h => h1 (.mul h))
  | div =>
    refine harith _ _ hr ?_
    rintro v w rfl rfl
    unfold divI
    split
    · rename_i h; subst h; exact h1 .div0
    · rename_i hw
      refine chk_out (fun h => ?_)
      have hv := hx v rfl
      by_cases hm : v = -2147483648 ∧ w = -1
      · obtain ⟨rfl, rfl⟩ := hm; exact h1 .divMin
      · exfalso
        apply h
        have ht := Int.natAbs_tdiv v w
        have hle : (v.tdiv w).natAbs ≤ v.natAbs := by rw [ht]; exact Nat.div_le_self _ _
        have hv1 := hv.1
        have hv2 := hv.2
        by_cases hw1 : w.natAbs = 1
        · rcases Int.natAbs_eq w with hw2 | hw2
          · have : w = 1 := by omega
            subst this
            rw [Int.tdiv_one]; exact hv
          · have : w = -1 := by omega
            subst this
            rw [Int.tdiv_neg, Int.tdiv_one]
            constructor <;> omega
        · have : (v.tdiv w).natAbs ≤ v.natAbs / 2 := by
            rw [ht]
            exact Nat.div_le_div_left (by omega) (by omega)
          constructor <;> omega
  | mod =>
    cases x <;> cases y <;> simp only [binV, modV, Option.some.injEq, reduceCtorEq] at hr <;> subst hr <;> first
      | trivial
      | skip
    rename_i v w
    unfold modI
    split
    · rename_i h; subst h; exact h1 .mod0
    · rename_i hw
      split
      · rename_i h
        obtain ⟨rfl, rfl⟩ := h
        exact h1 .modMin
      · have hlt := tmod_lt_abs v w hw
        have hw' := hy w rfl
        have hw1 := hw'.1
        have hw2 := hw'.2
        split
        · rename_i hneg
          refine chk_out (fun h => h1 (.modNeg ?_ ?_))
          · by_contra hv
            have := Int.tmod_nonneg w (show 0 ≤ v by omega)
            omega
          · by_contra hc
            apply h
            constructor <;> omega
        · show I32 _
          constructor <;> omega
  | pow =>
    cases x <;> cases y <;> simp only [binV, powV, num, Option.some.injEq, reduceCtorEq] at hr <;> subst hr <;> trivial
  | land => cases hr; exact hbool _
  | lor => cases hr; exact hbool _
  | band =>
    refine hbit _ hr ?_
    intro v w _ _
    show I32 _
    refine intOfU32_range _ (Nat.lt_of_le_of_lt Nat.and_le_left ?_)
    unfold u32OfInt; omega
  | bor =>
    refine hbit _ hr ?_
    intro v w _ _
    show I32 _
    refine intOfU32_range _ ?_
    have k1 : u32OfInt v < 2 ^ 32 := by unfold u32OfInt; omega
    have k2 : u32OfInt w < 2 ^ 32 := by unfold u32OfInt; omega
    exact Nat.or_lt_two_pow k1 k2
  | shl =>
    refine hbit _ hr ?_
    rintro v w rfl rfl
    unfold shlI
    split
    · exact chk_out (fun h => h1 (.shl (.inr (.inr (.inr h)))))
    · exact h1 (.shl (by omega))
  | shr =>
    refine hbit _ hr ?_
    rintro v w rfl rfl
    unfold shrI
    split
    · have hv := hx v rfl
      show I32 _
      have hv1 := hv.1
      have hv2 := hv.2
      have hp : (0 : Int) < 2 ^ w.toNat := by positivity
      constructor
      · rw [Int.le_ediv_iff_mul_le hp]
        nlinarith
      · have : v / 2 ^ w.toNat ≤ max v 0 := by
          by_cases h0 : 0 ≤ v
          · exact le_trans (Int.ediv_le_self _ h0) (le_max_left _ _)
          · exact le_trans (Int.ediv_nonpos_of_nonpos_of_neg (by omega) hp) (le_max_right _ _)
        omega
    · exact h1 (.shr (by omega))
  | eq => cases hr; exact hcmp _ (.inl rfl)
  | neq => cases hr; exact hcmp _ (.inr (.inl rfl))
  | gt => cases hr; exact hcmp _ (.inr (.inr (.inl rfl)))
  | gte => cases hr; exact hcmp _ (.inr (.inr (.inr (.inl rfl))))
  | lt => cases hr; exact hcmp _ (.inr (.inr (.inr (.inr (.inl rfl)))))
  | lte => cases hr; exact hcmp _ (.inr (.inr (.inr (.inr (.inr rfl)))))

theorem unV_out {C : Bad → Prop} {hp : Heap} {sm : Strman.SM Bytes} (u : Un) (x : Obj) (hx : ∀ v, x = .int v → I32 v)
    (h1 : u = .unm → x = .int (-2147483648) → C .ub) : ∀ r, unV u x = some r → Outcome (fun o => CellOk hp sm (.atom o)) C r := by
  intro r hr
  cases u with
  | unm =>
    cases x <;> simp only [unV, Option.some.injEq, reduceCtorEq] at hr <;> subst hr <;> first
      | trivial
      | skip
    rename_i v
    refine chk_out (fun h => h1 rfl ?_)
    have hv := hx v rfl
    have hv1 := hv.1
    have hv2 := hv.2
    by_contra hc
    apply h
    have : v ≠ -2147483648 := fun k => hc (by rw [k])
    constructor <;> omega
  | lnot =>
    cases hr
    show I32 _
    split <;> constructor <;> omega
  | bnot =>
    cases x <;> simp only [unV, Option.some.injEq, reduceCtorEq] at hr <;> subst hr
    rename_i v
    have hv := hx v rfl
    have hv1 := hv.1
    have hv2 := hv.2
    show I32 _
    constructor <;> omega

/-! ### Tables -/

theorem toU32_out {C : Bad → Prop} (f : Flt) (h : NoU32 f → C .ub) : Outcome (fun _ => True) C (Obj.toU32 f) := by
  cases f with
  | fin q =>
    unfold Obj.toU32
    simp only
    by_cases hq : 0 ≤ q
    · rw [if_pos hq]
      split
      · trivial
      · rename_i k
        refine h (.inr ?_)
        have h0 : 0 ≤ ⌊q⌋ := Int.floor_nonneg.mpr hq
        have h1 : (4294967296 : Int) ≤ ⌊q⌋ := by omega
        have := Int.le_floor.mp h1
        exact_mod_cast this
    · rw [if_neg hq]
      split
      · trivial
      · rename_i k
        refine h (.inl ?_)
        have h0 : ⌈q⌉ ≤ 0 := Int.ceil_le.mpr (by push_cast; linarith)
        have h1 : ⌈q⌉ ≤ (-1 : Int) := by omega
        have := Int.ceil_le.mp h1
        exact_mod_cast this
  | inf n => exact h trivial
  | nan => exact h trivial

theorem digits_length (n k : Nat) (hk : 0 < k) (h : n < 10 ^ k) : (Obj.digits n).length ≤ k := by
  unfold Obj.digits
  rw [List.length_map]
  exact (Nat.length_toDigits_le_iff (by omega) hk).mpr h

/-- A float that can be a key has a short text. -/
theorem short_text {f : Flt} (h : Obj.toU32 f ≠ .ub) : ¬ LongText f := by
  cases f with
  | inf n => exact absurd rfl h
  | nan => exact absurd rfl h
  | fin q =>
    have hq : -1 < q ∧ q < 4294967296 := by
      by_contra hc
      apply h
      unfold Obj.toU32
      simp only
      rw [if_neg]
      intro k
      apply hc
      by_cases h0 : 0 ≤ q
      · rw [if_pos h0] at k
        exact ⟨by linarith, by have := Int.floor_lt.mp k.2; exact_mod_cast this⟩
      · rw [if_neg h0] at k
        refine ⟨?_, by linarith⟩
        have : (-1 : Int) < ⌈q⌉ := by omega
        have := Int.lt_ceil.mp this
        exact_mod_cast this
    have habs : |q| * 1000000 < 4294967296000000 := by
      have : |q| < 4294967296 := abs_lt.mpr ⟨by linarith, hq.2⟩
      linarith
    have hn : (roundEven (|q| * 1000000)).toNat < 10 ^ 17 := by
      have h1 : ⌊|q| * 1000000⌋ < 4294967296000000 := Int.floor_lt.mpr (by exact_mod_cast habs)
      have h2 : roundEven (|q| * 1000000) ≤ ⌊|q| * 1000000⌋ + 1 := by
        unfold roundEven
        simp only
        split
        · omega
        · split
          · omega
          · split <;> omega
      omega
    unfold LongText Obj.fmtF
    simp only
    have d1 := digits_length ((roundEven (|q| * 1000000)).toNat / 1000000) 11 (by omega) (by omega)
    have d2 := digits_length ((roundEven (|q| * 1000000)).toNat % 1000000) 6 (by omega) (by omega)
    have d3 : (Obj.sixDigits ((roundEven (|q| * 1000000)).toNat % 1000000)).length = 6 := by
      unfold Obj.sixDigits
      rw [List.length_append, List.length_replicate]
      omega
    split
    · simp only [List.length_cons, List.length_append, d3]; omega
    · simp only [List.length_cons, List.length_append, d3]; omega

/-- A key that can be hashed. -/
def Hashable (k : Obj) : Prop := isKey k = true ∧ Obj.tableHash k ≠ .ub ∧ ∀ v, k = .int v → I32 v

theorem hash_out {C : Bad → Prop} {k : Obj} (hk : isKey k = true) (h : ∀ f, k = .flt f → NoU32 f → C .ub) :
    Outcome (fun _ => True) C (Obj.tableHash k) := by
  cases k <;> first
    | trivial
    | (simp [isKey] at hk; done)
    | skip
  rename_i f
  exact (toU32_out f (h f rfl)).bind (fun _ _ => trivial)

theorem hashable_text {f : Flt} (h : Hashable (.flt f)) : ¬ LongText f := by
  apply short_text
  intro hc
  apply h.2.1
  simp [Obj.tableHash, hc]

theorem cmp_hashable (sc : Bytes → Bytes → Int) {a b : Obj} (ha : Hashable a) (hb : Hashable b) : ∃ c, Obj.cmp sc a b = .ok c := by
  have : Outcome (fun _ => True) (fun _ => False) (Obj.cmp sc a b) := by
    refine cmp_out sc a b ha.2.2 hb.2.2 ?_ ?_ ?_
    · rintro i s f rfl rfl h; exact hashable_text hb h
    · rintro i s f rfl rfl h; exact hashable_text ha h
    · rintro ⟨_, _, _, _, h, _⟩
      have h1 := ha.1
      have h2 := hb.1
      cases a <;> cases b <;> simp [isKey, Opaque] at h h1 h2
  cases h : Obj.cmp sc a b with
  | ok c => exact ⟨c, rfl⟩
  | _ => rw [h] at this; exact this.elim

theorem scan_hashable {V : Type} (sc : Bytes → Bytes → Int) {k : Obj} (hk : Hashable k) : ∀ (l : List (Obj × V)),
    (∀ e ∈ l, Hashable e.1) → Table.scan sc k l = .ok ()
  | [], _ => rfl
  | e :: es, h => by
    obtain ⟨c, hc⟩ := cmp_hashable sc hk (h e (List.mem_cons_self ..))
    unfold Table.scan
    rw [hc, Res.ok_bind]
    split
    · rfl
    · exact scan_hashable sc hk es (fun x hx => h x (List.mem_cons_of_mem _ hx))

theorem bucket_entries {K V : Type} {d : Dict.Dict K V} {h : Nat} {es : List (K × V)} (hb : d.buckets[h]? = some (some es)) :
    ∀ e ∈ es, e ∈ Dict.entries d := by
  intro e he
  unfold Dict.entries
  rw [List.mem_flatMap]
  exact ⟨some es, List.mem_of_getElem? hb, he⟩

theorem slot_bucket {K V : Type} (hash : K → Nat) {d : Dict.Dict K V} (hn : d.buckets.length ≠ 0) (k : K) :
    ∃ h b, Dict.slot hash d k = .ok h ∧ Dict.bucket d h = .ok b ∧ d.buckets[h]? = some b := by
  have hlt : hash k % d.buckets.length < d.buckets.length := Nat.mod_lt _ (by omega)
  refine ⟨hash k % d.buckets.length, d.buckets[hash k % d.buckets.length], ?_, ?_, List.getElem?_eq_getElem hlt⟩
  · unfold Dict.slot; rw [if_neg hn]
  · unfold Dict.bucket; rw [List.getElem?_eq_getElem hlt]

theorem check_out {V : Type} {C : Bad → Prop} (sc : Bytes → Bytes → Int) {t : Table.Tbl V} (hn : t.buckets.length ≠ 0)
    (ht : ∀ e ∈ Dict.entries t, Hashable e.1) {k : Obj} (hk : isKey k = true) (hi : ∀ v, k = .int v → I32 v)
    (h : ∀ f, k = .flt f → NoU32 f → C .ub) : Outcome (fun _ => Hashable k) C (Table.check sc t k) := by
  unfold Table.check
  have hh := hash_out (C := C) hk h
  cases hq : Obj.tableHash k with
  | ok n =>
    have hk' : Hashable k := ⟨hk, by rw [hq]; simp, hi⟩
    obtain ⟨s, b, h1, h2, h3⟩ := slot_bucket Table.hashN hn k
    rw [Res.ok_bind, h1, Res.ok_bind, h2, Res.ok_bind, scan_hashable sc hk']
    · exact hk'
    · intro e he
      cases b with
      | none => simp at he
      | some es => exact ht e (bucket_entries h3 e he)
  | ub => rw [hq] at hh; exact hh
  | abort => rw [hq] at hh; exact hh
  | hang => rw [hq] at hh; exact hh

theorem mem_set_entries {K V : Type} {bs : List (Option (List (K × V)))} {h : Nat} {b : Option (List (K × V))} {e : K × V} {n : Nat}
    (he : e ∈ Dict.entries ⟨bs.set h b, n⟩) : e ∈ b.getD [] ∨ ∀ m, e ∈ Dict.entries ⟨bs, m⟩ := by
  unfold Dict.entries at he ⊢
  rw [List.mem_flatMap] at he
  obtain ⟨x, hx, hex⟩ := he
  rcases List.mem_or_eq_of_mem_set hx with hx | hx
  · right; intro m; rw [List.mem_flatMap]; exact ⟨x, hx, hex⟩
  · left; rw [← hx]; exact hex

theorem dict_set_mem {K V : Type} (hash : K → Nat) (eqk : K → K → Bool) {d : Dict.Dict K V} (hn : d.buckets.length ≠ 0) (k : K) (v : V) :
    ∃ r, Dict.set hash eqk d k v = .ok r ∧ r.1.buckets.length = d.buckets.length ∧ ∀ e ∈ Dict.entries r.1, e ∈ Dict.entries d ∨ e = (k, v) := by
  obtain ⟨h, b, h1, h2, h3⟩ := slot_bucket hash hn k
  have old : ∀ {e : K × V}, (∀ m, e ∈ Dict.entries ⟨d.buckets, m⟩) → e ∈ Dict.entries d := fun hm => hm d.size
  unfold Dict.set
  rw [h1, Res.ok_bind, h2, Res.ok_bind]
  cases b with
  | none =>
    refine ⟨_, rfl, by simp, fun e he => ?_⟩
    rcases mem_set_entries he with h | h
    · right; simpa using h
    · left; exact old h
  | some es =>
    simp only
    split
    · refine ⟨_, rfl, by simp, fun e he => ?_⟩
      rcases mem_set_entries he with h | h
      · simp only [Option.getD_some, List.mem_append, List.mem_singleton] at h
        rcases h with h | h
        · left; exact bucket_entries h3 e h
        · right; exact h
      · left; exact old h
    · refine ⟨_, rfl, by simp, fun e he => ?_⟩
      rcases mem_set_entries he with h | h
      · simp only [Option.getD_some, List.mem_append, List.mem_singleton] at h
        rcases h with h | h
        · left; exact bucket_entries h3 e (List.mem_of_mem_eraseP h)
        · right; exact h
      · left; exact old h

theorem dict_remove_mem {K V : Type} (hash : K → Nat) (eqk : K → K → Bool) {d : Dict.Dict K V} (hn : d.buckets.length ≠ 0) (k : K) :
    ∃ r, Dict.remove hash eqk d k = .ok r ∧ r.1.buckets.length = d.buckets.length ∧ ∀ e ∈ Dict.entries r.1, e ∈ Dict.entries d := by
  obtain ⟨h, b, h1, h2, h3⟩ := slot_bucket hash hn k
  have old : ∀ {e : K × V}, (∀ m, e ∈ Dict.entries ⟨d.buckets, m⟩) → e ∈ Dict.entries d := fun hm => hm d.size
  unfold Dict.remove
  rw [h1, Res.ok_bind, h2, Res.ok_bind]
  cases b with
  | none => exact ⟨_, rfl, rfl, fun e he => he⟩
  | some es =>
    simp only
    split
    · exact ⟨_, rfl, rfl, fun e he => he⟩
    · refine ⟨_, rfl, by simp, fun e he => ?_⟩
      rcases mem_set_entries he with h | h
      · split at h
        · simp at h
        · exact bucket_entries h3 e (List.mem_of_mem_eraseP h)
      · exact old h

theorem dict_rawget_mem {K V : Type} (hash : K → Nat) (eqk : K → K → Bool) {d : Dict.Dict K V} (hn : d.buckets.length ≠ 0) (k : K) :
    ∃ r, Dict.rawget hash eqk d k = .ok r ∧ ∀ v, r = some v → ∃ e ∈ Dict.entries d, e.2 = v := by
  obtain ⟨h, b, h1, h2, h3⟩ := slot_bucket hash hn k
  unfold Dict.rawget
  rw [h1, Res.ok_bind, h2, Res.ok_bind]
  cases b with
  | none => exact ⟨_, rfl, fun v hv => by cases hv⟩
  | some es =>
    refine ⟨_, rfl, fun v hv => ?_⟩
    obtain ⟨e, he, hv⟩ := Option.map_eq_some_iff.mp hv
    exact ⟨e, bucket_entries h3 e (List.mem_of_find?_eq_some he), hv⟩

/-! ### Instructions -/

/-- The result of an operation that leaves the program counter alone. -/
def Same (vm v : VM) : Prop := VInv v ∧ v.pc = vm.pc ∧ v.code = vm.code

theorem int_ok {vm : VM} (i : VInv vm) {a : Nat} {c : Cell} (h : Holds vm.heap a c) : ∀ v, objOf a c = .int v → I32 v := by
  intro v hv
  have := i.cells a c h
  cases c with
  | atom o => simp only [objOf] at hv; subst hv; exact this
  | tab t => simp [objOf] at hv
  | clo n r l => simp [objOf] at hv

theorem binop_out {E : Env} {F : CFuns} {vm : VM} (i : VInv vm) (b : Bin) :
    Outcome (Same vm) (Cause E F vm (.bin b)) (binop E b vm) := by
  unfold binop
  refine need_rule (n := 2) ⟨i.setErr _, rfl, rfl⟩ (fun hl => ?_)
  obtain ⟨a1, c1, g1, k1, _, _, p1⟩ := peek_ok i (n := 0) (by omega)
  obtain ⟨a2, c2, g2, k2, _, _, p2⟩ := peek_ok i (n := 1) (by omega)
  simp only [Nat.zero_add, Nat.cast_one, Nat.reduceAdd, Nat.cast_ofNat] at p1 p2
  rw [p1, Res.ok_bind, p2, Res.ok_bind]
  have v1 : Val vm 0 (objOf a1 c1) := ⟨a1, c1, g1, k1, rfl⟩
  have v2 : Val vm 1 (objOf a2 c2) := ⟨a2, c2, g2, k2, rfl⟩
  have key := binV_out (C := Cause E F vm (.bin b)) (hp := vm.heap) (sm := vm.strings) E b (objOf a2 c2) (objOf a1 c1) (int_ok i k2) (int_ok i k1)
    (fun h => .undef v2 v1 h) (fun hb h => .nocmp hb v2 v1 h)
  split
  · split
    · exact ⟨i.setErr _, rfl, rfl⟩
    · exact ⟨(i.popN 2).setErr _, rfl, rfl⟩
  · rename_i r hr
    exact (key r hr).bind (fun v hv => ⟨(i.popN 2).push hv, rfl, rfl⟩)

theorem unop_out {E : Env} {F : CFuns} {vm : VM} (i : VInv vm) (u : Un) :
    Outcome (Same vm) (Cause E F vm (.un u)) (unop u vm) := by
  unfold unop
  refine need_rule (n := 1) ⟨i.setErr _, rfl, rfl⟩ (fun hl => ?_)
  obtain ⟨a1, c1, g1, k1, _, _, p1⟩ := peek_ok i (n := 0) (by omega)
  simp only [Nat.zero_add, Nat.cast_one] at p1
  rw [p1, Res.ok_bind]
  have v1 : Val vm 0 (objOf a1 c1) := ⟨a1, c1, g1, k1, rfl⟩
  have key := unV_out (C := Cause E F vm (.un u)) (hp := vm.heap) (sm := vm.strings) u (objOf a1 c1) (int_ok i k1)
    (fun h hx => by subst h; rw [hx] at v1; exact .neg v1)
  split
  · split
    · exact ⟨i.setErr _, rfl, rfl⟩
    · exact ⟨(i.popN 1).setErr _, rfl, rfl⟩
  · rename_i r hr
    exact (key r hr).bind (fun v hv => ⟨(i.popN 1).push hv, rfl, rfl⟩)

theorem tab_ok {vm : VM} (i : VInv vm) {a : Nat} {t : Table.Tbl (Nat × Nat)} (h : Holds vm.heap a (.tab t)) :
    t.buckets.length ≠ 0 ∧ (∀ e ∈ Dict.entries t, Hashable e.1) ∧ ∀ e ∈ Dict.entries t, Holds vm.heap e.2.1 (.atom e.1) ∧ Live vm.heap e.2.2 := by
  have hk := i.cells a _ h
  refine ⟨hk.1, fun e he => ⟨(hk.2 e he).1, (hk.2 e he).2.1, fun v hv => ?_⟩, fun e he => ⟨(hk.2 e he).2.2.1, (hk.2 e he).2.2.2⟩⟩
  have := i.cells _ _ (hk.2 e he).2.2.1
  rw [hv] at this
  exact this

/-- A key object is an atom. -/
theorem key_atom {a : Nat} {c : Cell} (h : isKey (objOf a c) = true) : c = .atom (objOf a c) := by
  cases c with
  | atom o => rfl
  | tab t => simp [objOf, isKey] at h
  | clo n r l => simp [objOf, isKey] at h

theorem tput_out {E : Env} {F : CFuns} {vm : VM} (i : VInv vm) : Outcome (Same vm) (Cause E F vm .tput) (tput E vm) := by
  unfold tput
  refine need_rule (n := 3) ⟨i.setErr _, rfl, rfl⟩ (fun hl => ?_)
  obtain ⟨a1, c1, g1, k1, q1, r1, p1⟩ := peek_ok i (n := 0) (by omega)
  obtain ⟨a2, c2, g2, k2, q2, r2, p2⟩ := peek_ok i (n := 1) (by omega)
  obtain ⟨a3, c3, g3, k3, q3, r3, p3⟩ := peek_ok i (n := 2) (by omega)
  simp only [Nat.zero_add, Nat.cast_one, Nat.reduceAdd, Nat.cast_ofNat] at p1 p2 p3 q1 q2 q3 r1 r2 r3
  simp only [q3, r3, Res.ok_bind]
  cases c3 with
  | atom o => exact ⟨i.setErr _, rfl, rfl⟩
  | clo n r l => exact ⟨i.setErr _, rfl, rfl⟩
  | tab t =>
    simp only [q1, r1, q2, p2, Res.ok_bind]
    obtain ⟨hn, ht, hlv⟩ := tab_ok i k3
    split
    · rename_i hkey
      have hck := key_atom hkey
      have chk : Outcome (fun _ => Hashable (objOf a2 c2)) (Cause E F vm .tput) (Table.check E.sc t (objOf a2 c2)) := by
        refine check_out E.sc hn ht hkey (int_ok i k2) ?_
        intro f hf hno
        exact .putKey ⟨a2, c2, g2, k2, hf⟩ hno
      have i3 : VInv (popN vm 3) := i.popN 3
      -- setting an entry in a table of the heap `h`
      have hset : ∀ (vm' : VM) (va : Nat), VInv vm' → (∀ a o, Holds vm.heap a (.atom o) → Holds vm'.heap a (.atom o)) →
          (∀ a, Live vm.heap a → Live vm'.heap a) → Holds vm'.heap a3 (.tab t) → vm'.pc = vm.pc → vm'.code = vm.code → Live vm'.heap va →
          Outcome (Same vm) (Cause E F vm .tput) (do
            let t' ← Table.set E.sc t (objOf a2 c2) (a2, va)
            pure { vm' with heap := write vm'.heap a3 (.tab t') }) := by
        intro vm' va i' hat hlive h3 hpc hcode hva
        unfold Table.set
        have := chk.bind (Q' := fun t' => t'.buckets.length ≠ 0 ∧ Hashable (objOf a2 c2) ∧ ∀ e ∈ Dict.entries t', e ∈ Dict.entries t ∨ e = (objOf a2 c2, (a2, va)))
          (k := fun _ => do
            let r ← Dict.set Table.hashN (Table.keq E.sc) t (objOf a2 c2) (a2, va)
            pure r.1) (by
            intro _ hh
            obtain ⟨r, s1, s2, s3⟩ := dict_set_mem Table.hashN (Table.keq E.sc) hn (objOf a2 c2) (a2, va)
            rw [s1]
            exact ⟨by rw [s2]; exact hn, hh, s3⟩)
        refine this.bind ?_
        rintro t' ⟨b1, b2, b3⟩
        refine ⟨i'.write h3 (fun o h => Cell.noConfusion h) ⟨b1, fun e he => ?_⟩, hpc, hcode⟩
        rcases b3 e he with h | h
        · exact ⟨(ht e h).1, (ht e h).2.1, hat _ _ (hlv e h).1, hlive _ (hlv e h).2⟩
        · subst h
          exact ⟨hkey, b2.2.1, hat _ _ (hck ▸ k2), hva⟩
      cases c1 with
      | atom o =>
        have hva : Live (popN vm 3).heap a1 := ⟨_, k1⟩
        cases o with
        | nil =>
          unfold Table.remove
          have := chk.bind (Q' := fun t' => t'.buckets.length ≠ 0 ∧ ∀ e ∈ Dict.entries t', e ∈ Dict.entries t)
            (k := fun _ => do
              let r ← Dict.remove Table.hashN (Table.keq E.sc) t (objOf a2 c2)
              pure r.1) (by
              intro _ hh
              obtain ⟨r, s1, s2, s3⟩ := dict_remove_mem Table.hashN (Table.keq E.sc) hn (objOf a2 c2)
              rw [s1]
              exact ⟨by rw [s2]; exact hn, s3⟩)
          refine this.bind ?_
          rintro t' ⟨b1, b3⟩
          exact ⟨i3.write k3 (fun o h => Cell.noConfusion h) ⟨b1, fun e he =>
            ⟨(ht e (b3 e he)).1, (ht e (b3 e he)).2.1, (hlv e (b3 e he)).1, (hlv e (b3 e he)).2⟩⟩, rfl, rfl⟩
        | int v => exact hset (popN vm 3) a1 i3 (fun _ _ h => h) (fun _ h => h) k3 rfl rfl hva
        | flt v => exact hset (popN vm 3) a1 i3 (fun _ _ h => h) (fun _ h => h) k3 rfl rfl hva
        | str v w => exact hset (popN vm 3) a1 i3 (fun _ _ h => h) (fun _ h => h) k3 rfl rfl hva
        | tab v => exact hset (popN vm 3) a1 i3 (fun _ _ h => h) (fun _ h => h) k3 rfl rfl hva
        | clo v => exact hset (popN vm 3) a1 i3 (fun _ _ h => h) (fun _ h => h) k3 rfl rfl hva
        | user v => exact hset (popN vm 3) a1 i3 (fun _ _ h => h) (fun _ h => h) k3 rfl rfl hva
      | tab t1 => exact hset (popN vm 3) a1 i3 (fun _ _ h => h) (fun _ h => h) k3 rfl rfl ⟨_, k1⟩
      | clo n r l =>
        have hc := i.cells _ _ k1
        have i4 : VInv { popN vm 3 with heap := (newobj (popN vm 3).heap (.clo n r (a3 :: l.tail))).1 } := by
          refine i3.newobj ⟨hc.1, fun b hb => ?_⟩
          rcases List.mem_cons.mp hb with hb | hb
          · rw [hb]; exact ⟨_, k3⟩
          · exact hc.2 b (List.mem_of_mem_tail hb)
        exact hset { popN vm 3 with heap := (newobj (popN vm 3).heap (.clo n r (a3 :: l.tail))).1 } (newobj (popN vm 3).heap (.clo n r (a3 :: l.tail))).2
          i4 (fun _ _ h => holds_old i3.heap h) (fun _ h => live_old i3.heap h) (holds_old i3.heap k3) rfl rfl ⟨_, holds_new i3.heap _⟩
    · exact ⟨(i.popN 3).setErr _, rfl, rfl⟩

theorem tget_out {E : Env} {F : CFuns} {vm : VM} (i : VInv vm) : Outcome (Same vm) (Cause E F vm .tget) (tget E vm) := by
  unfold tget
  refine need_rule (n := 2) ⟨i.setErr _, rfl, rfl⟩ (fun hl => ?_)
  obtain ⟨a1, c1, g1, k1, q1, r1, p1⟩ := peek_ok i (n := 0) (by omega)
  obtain ⟨a2, c2, g2, k2, q2, r2, p2⟩ := peek_ok i (n := 1) (by omega)
  simp only [Nat.zero_add, Nat.cast_one, Nat.reduceAdd, Nat.cast_ofNat] at p1 p2 q1 q2 r1 r2
  simp only [r2, Res.ok_bind]
  cases c2 with
  | atom o => exact ⟨i.setErr _, rfl, rfl⟩
  | clo n r l => exact ⟨i.setErr _, rfl, rfl⟩
  | tab t =>
    simp only [p1, Res.ok_bind]
    obtain ⟨hn, ht, hlv⟩ := tab_ok i k2
    split
    · rename_i hkey
      have chk : Outcome (fun _ => Hashable (objOf a1 c1)) (Cause E F vm .tget) (Table.check E.sc t (objOf a1 c1)) := by
        refine check_out E.sc hn ht hkey (int_ok i k1) ?_
        intro f hf hno
        exact .getKey ⟨a1, c1, g1, k1, hf⟩ hno
      unfold Table.get
      have := chk.bind (Q' := fun r => ∀ v, r = some v → ∃ e ∈ Dict.entries t, e.2 = v)
        (k := fun _ => Dict.rawget Table.hashN (Table.keq E.sc) t (objOf a1 c1)) (by
          intro _ hh
          obtain ⟨r, s1, s2⟩ := dict_rawget_mem Table.hashN (Table.keq E.sc) hn (objOf a1 c1)
          rw [s1]
          exact s2)
      refine this.bind ?_
      intro r hr
      cases r with
      | none => exact ⟨(i.popN 2).push trivial, rfl, rfl⟩
      | some v =>
        obtain ⟨e, he, hv⟩ := hr v rfl
        subst hv
        exact ⟨(i.popN 2).pushAddr (hlv e he).2, rfl, rfl⟩
    · rename_i hkey
      exact .badKey ⟨a2, g2, k2⟩ ⟨a1, c1, g1, k1, rfl⟩ (by simpa using hkey)

theorem gload_out {C : Bad → Prop} {vm : VM} (i : VInv vm) : Outcome (Same vm) C (gload vm) := by
  unfold gload
  refine need_rule (n := 1) ⟨i.setErr _, rfl, rfl⟩ (fun hl => ?_)
  obtain ⟨a1, c1, g1, k1, q1, r1, p1⟩ := peek_ok i (n := 0) (by omega)
  simp only [Nat.zero_add, Nat.cast_one] at p1
  rw [p1, Res.ok_bind]
  split
  · split
    · rename_i a h
      exact ⟨(i.popN 1).pushAddr (i.gsyms _ (FMap.mem_of_get h)), rfl, rfl⟩
    · exact ⟨(i.popN 1).push trivial, rfl, rfl⟩
  · exact ⟨i.setErr _, rfl, rfl⟩

theorem gstore_out {C : Bad → Prop} {vm : VM} (i : VInv vm) : Outcome (Same vm) C (gstore vm) := by
  unfold gstore
  refine need_rule (n := 2) ⟨i.setErr _, rfl, rfl⟩ (fun hl => ?_)
  obtain ⟨a1, c1, g1, k1, q1, r1, p1⟩ := peek_ok i (n := 0) (by omega)
  obtain ⟨a2, c2, g2, k2, q2, r2, p2⟩ := peek_ok i (n := 1) (by omega)
  simp only [Nat.zero_add, Nat.cast_one, Nat.reduceAdd, Nat.cast_ofNat] at p1 p2 q1 q2
  rw [p2, Res.ok_bind]
  split
  · rw [q1]
    refine ⟨{ i.popN 2 with gsyms := ?_ }, rfl, rfl⟩
    intro e he
    simp only [FMap.set, List.mem_append, List.mem_filter, List.mem_singleton] at he
    rcases he with he | he
    · exact i.gsyms e he.1
    · subst he; exact ⟨_, k1⟩
  · exact ⟨i.setErr _, rfl, rfl⟩

theorem lload_out {C : Bad → Prop} {vm : VM} (i : VInv vm) (idx : Nat) (h : vm.frames = [] → C .ub) : Outcome (Same vm) C (lload vm idx) := by
  unfold lload
  split
  · rename_i hf; exact h hf
  · rename_i f fs hf
    split
    · exact ⟨i.setErr _, rfl, rfl⟩
    · rename_i hlt
      have hl : idx < f.syms.length := by omega
      rw [List.getElem?_eq_getElem hl]
      exact ⟨i.pushAddr (i.frames f (by rw [hf]; exact List.mem_cons_self ..) _ (List.getElem_mem hl)), rfl, rfl⟩

theorem VInv.setFrame {vm : VM} (i : VInv vm) {f : Frame} {fs : List Frame} (hf : vm.frames = f :: fs) {l : List Nat}
    (hl : ∀ a ∈ l, Live vm.heap a) : VInv { vm with frames := { f with syms := l } :: fs } := by
  refine { i with frames := ?_, depth := ?_ }
  · intro g hg a ha
    rcases List.mem_cons.mp hg with hg | hg
    · subst hg; exact hl a ha
    · exact i.frames g (by rw [hf]; exact List.mem_cons_of_mem _ hg) a ha
  · intro hs
    have := i.depth hs
    rw [hf] at this
    exact this

theorem lstore_out {C : Bad → Prop} {vm : VM} (i : VInv vm) (idx : Nat) (h : vm.frames = [] → C .ub)
    (h2 : ∀ f fs, vm.frames = f :: fs → f.syms.length < idx → C .ub) : Outcome (Same vm) C (lstore vm idx) := by
  unfold lstore
  refine need_rule (n := 1) ⟨i.setErr _, rfl, rfl⟩ (fun hl => ?_)
  obtain ⟨a1, c1, g1, k1, q1, r1, p1⟩ := peek_ok i (n := 0) (by omega)
  simp only [Nat.zero_add, Nat.cast_one] at q1
  rw [q1, Res.ok_bind]
  split
  · rename_i hf; exact h hf
  · rename_i f fs hf
    have hlv : ∀ a ∈ f.syms, Live vm.heap a := i.frames f (by rw [hf]; exact List.mem_cons_self ..)
    split
    · refine ⟨(i.popN 1).setFrame hf (l := f.syms.set idx a1) (fun a ha => ?_), rfl, rfl⟩
      rcases List.mem_or_eq_of_mem_set ha with ha | ha
      · exact hlv a ha
      · rw [ha]; exact ⟨_, k1⟩
    · split
      · refine ⟨(i.popN 1).setFrame hf (l := f.syms ++ [a1]) (fun a ha => ?_), rfl, rfl⟩
        simp only [List.mem_append, List.mem_singleton] at ha
        rcases ha with ha | ha
        · exact hlv a ha
        · rw [ha]; exact ⟨_, k1⟩
      · exact h2 f fs hf (by omega)

theorem lremove_out {C : Bad → Prop} {vm : VM} (i : VInv vm) (num : Nat) (h : vm.frames = [] → C .ub) :
    Outcome (Same vm) C (lremove vm num) := by
  unfold lremove
  split
  · rename_i hf; exact h hf
  · rename_i f fs hf
    have j : VInv { vm with frames := { f with syms := f.syms.take (f.syms.length - num) } :: fs } :=
      i.setFrame hf (fun a ha => i.frames f (by rw [hf]; exact List.mem_cons_self ..) a (List.mem_of_mem_take ha))
    simp only
    split
    · exact ⟨j.setErr _, rfl, rfl⟩
    · exact ⟨j, rfl, rfl⟩

theorem retTo_out {C : Bad → Prop} {vm : VM} (i : VInv vm) {k : VM → VM} (hk : ∀ v, VInv v → v.heap = vm.heap → VInv (k v)) :
    Outcome VInv C (retTo vm k) := by
  unfold retTo
  refine need_rule (n := 1) (i.setErr _) (fun hl => ?_)
  obtain ⟨a1, c1, g1, k1, q1, r1, p1⟩ := peek_ok i (n := 0) (by omega)
  simp only [Nat.zero_add, Nat.cast_one] at p1
  rw [p1, Res.ok_bind]
  split
  · rename_i v hv
    exact hk _ ((i.popN 1).setPc (int_ok i k1 v hv)) rfl
  · exact i.setErr _

theorem VInv.leave {vm : VM} (i : VInv vm) (hs : vm.state ≠ .error) {f : Frame} {fs : List Frame} {s : List Nat} {r : List (List Nat)}
    (hf : vm.frames = f :: fs) (hr : vm.rest = s :: r) (sw : List Nat) :
    VInv { vm with swarmstack := sw, frames := fs, stack := s, rest := r } := by
  have hd := i.depth hs
  rw [hf, hr] at hd
  refine { i with stack := ?_, rest := ?_, frames := ?_, depth := ?_ }
  · exact i.rest s (by rw [hr]; exact List.mem_cons_self ..)
  · exact fun x hx => i.rest x (by rw [hr]; exact List.mem_cons_of_mem _ hx)
  · exact fun x hx => i.frames x (by rw [hf]; exact List.mem_cons_of_mem _ hx)
  · intro _; simpa using hd

theorem ret0_out {C : Bad → Prop} {vm : VM} (i : VInv vm) (hs : vm.state ≠ .error) (h : vm.frames = [] → C .ub) : Outcome VInv C (ret0 vm) := by
  unfold ret0
  have hd := i.depth hs
  split
  · rename_i f fs s r hf hr
    exact retTo_out (i.leave hs hf hr _) (fun v iv _ => iv.push trivial)
  · rename_i hne
    apply h
    cases hf : vm.frames with
    | nil => rfl
    | cons f fs =>
      cases hr : vm.rest with
      | nil => rw [hf, hr] at hd; simp at hd
      | cons s r => exact absurd hr (hne f fs s r hf)

theorem ret1_out {C : Bad → Prop} {vm : VM} (i : VInv vm) (hs : vm.state ≠ .error) (h : vm.frames = [] → C .ub) :
    Outcome VInv C (ret1 vm) := by
  unfold ret1
  have hd := i.depth hs
  split
  · rename_i hf; exact h hf
  · rename_i f fs hf
    simp only
    refine need_rule (n := 1) ?_ (fun hl => ?_)
    · exact { i with depth := fun h => absurd rfl h, frames := fun x hx => i.frames x (by rw [hf]; exact List.mem_cons_of_mem _ hx) }
    obtain ⟨a1, c1, g1, k1, q1, r1, p1⟩ := peek_ok i (n := 0) hl
    simp only [Nat.zero_add, Nat.cast_one] at q1
    have q1' : peekAddr { vm with swarmstack := if f.swarm then vm.swarmstack.tail else vm.swarmstack, frames := fs } 1 = .ok a1 := q1
    rw [q1', Res.ok_bind]
    split
    · rename_i hr
      rw [hf, hr] at hd; simp at hd
    · rename_i s r hr
      exact retTo_out (i.leave hs hf hr _) (fun v iv hh => iv.pushAddr ⟨c1, hh ▸ k1⟩)

theorem VInv.enter {vm : VM} (i : VInv vm) (n : Nat) {actrec : List Nat} (sw : Bool) (hc : ∀ a ∈ actrec, Live vm.heap a) :
    VInv (enter vm n actrec sw) := by
  have k : CellOk vm.heap vm.strings (.atom (.int vm.pc)) := i.pcr
  have j := i.newobj k
  have hl : ∀ a, Live vm.heap a → Live (Heap.newobj vm.heap (.atom (.int vm.pc))).1 a := fun a h => live_old i.heap h
  refine { j with stack := ?_, frames := ?_, depth := ?_, rest := ?_ }
  · intro a ha; simp [VM.enter] at ha
  · intro s hs a ha
    rcases List.mem_cons.mp hs with hs | hs
    · subst hs
      rcases List.mem_cons.mp ha with ha | ha
      · rw [ha]; exact ⟨_, holds_new i.heap _⟩
      · exact hl a (i.stack a (List.mem_of_mem_drop ha))
    · exact j.rest s hs a ha
  · intro f hf a ha
    rcases List.mem_cons.mp hf with hf | hf
    · subst hf
      simp only [List.mem_append, List.mem_reverse] at ha
      rcases ha with ha | ha
      · exact hl a (hc a ha)
      · exact hl a (i.stack a (List.mem_of_mem_take ha))
    · exact j.frames f hf a ha
  · intro hs
    have := i.depth hs
    simp [VM.enter, pushInt, VM.push, this]

theorem call_out {E : Env} {F : CFuns} {vm0 vm : VM} (i : VInv vm) (hF : FOk F) (hrd : vm.state = .ready) (sw : Bool) {op : Op} (hop : op ∈ [Op.callc, .calls])
    (hst : vm0.stack = vm.stack) (hh : vm0.heap = vm.heap) : Outcome VInv (Cause E F vm0 op) (call F sw vm) := by
  have hval : ∀ {n o}, Val vm n o → Val vm0 n o := by
    rintro n o ⟨a, c, h1, h2, h3⟩
    exact ⟨a, c, by rw [hst]; exact h1, by rw [hh]; exact h2, h3⟩
  have hat : ∀ {n c}, At vm n c → At vm0 n c := by
    rintro n c ⟨a, h1, h2⟩
    exact ⟨a, by rw [hst]; exact h1, by rw [hh]; exact h2⟩
  unfold call
  refine need_rule (n := 1) (i.setErr _) (fun hl => ?_)
  obtain ⟨a1, c1, g1, k1, q1, r1, p1⟩ := peek_ok i (n := 0) (by omega)
  simp only [Nat.zero_add, Nat.cast_one] at p1
  rw [p1, Res.ok_bind]
  split
  · rename_i argn hv
    have hv0 : Val vm 0 (.int argn) := ⟨a1, c1, g1, k1, hv⟩
    simp only
    split
    · rename_i hmax
      exact .argn hop (hval hv0) (.inr hmax)
    · rename_i hmax
      by_cases hneg : argn < 0
      · unfold need
        split
        · exact (i.popN 1).setErr _
        · have : peekCell (popN vm 1) (argn + 1) = .ub := by
            have hp : peekAddr (popN vm 1) (argn + 1) = .ub := by
              unfold peekAddr
              rw [if_neg (by omega)]
            unfold peekCell
            rw [hp]; rfl
          rw [this]
          exact .argn hop (hval hv0) (.inl hneg)
      · obtain ⟨n, rfl⟩ : ∃ n : Nat, argn = n := ⟨argn.toNat, by omega⟩
        have e : ((n : Int) + 1) = ((n + 1 : Nat) : Int) := by omega
        rw [e]
        refine need_rule ((i.popN 1).setErr _) (fun hl2 => ?_)
        obtain ⟨a2, c2, g2, k2, q2, r2, p2⟩ := peek_ok (i.popN 1) (n := n) (by omega)
        rw [r2, Res.ok_bind]
        have hat2 : At vm (n + 1) c2 := by
          refine ⟨a2, ?_, k2⟩
          have : (vm.stack.drop 1)[n]? = some a2 := g2
          rw [List.getElem?_drop] at this
          rw [Nat.add_comm]; exact this
        cases c2 with
        | atom o => exact (i.popN 1).setErr _
        | tab t => exact (i.popN 1).setErr _
        | clo native ref actrec =>
          simp only
          split
          · exact (i.popN 1).setErr _
          · have hc := i.cells _ _ k2
            have i3 : VInv (enter (popN vm 1) (n : Int).toNat actrec sw) := (i.popN 1).enter _ _ hc.2
            split
            · exact i3.setPc hc.1
            · rename_i hnat
              have hnat : native = false := by simpa using hnat
              subst hnat
              split
              · rename_i hneg
                exact .cref hop (hval hv0) (hat hat2) hneg
              · rename_i hpos
                obtain ⟨r, rfl⟩ : ∃ r : Nat, ref = r := ⟨ref.toNat, by omega⟩
                refine (Outcome.self _).mono (fun v hv => hF _ _ _ i3 hrd hv) (fun b hb => ?_)
                exact .cfun hop (hval hv0) (hat hat2) i3 hb
  · exact i.setErr _

theorem fine_pop {vm : VM} (i : VInv vm) (p : PcIn vm) : Fine (pop vm) := by
  refine ⟨i.pop, fun _ => ?_⟩
  unfold pop
  split <;> exact p

theorem jump_rule {C : Bad → Prop} {vm : VM} (i : VInv vm) (p : PcIn vm) (a : Nat) (ha : a < 4294967296) (b : Bool) :
    Outcome Fine C (jumpIf vm b a) := by
  unfold jumpIf
  refine need_rule (n := 1) (fine_err i _) (fun hl => ?_)
  obtain ⟨a1, c1, g1, k1, q1, r1, p1⟩ := peek_ok i (n := 0) (by omega)
  simp only [Nat.zero_add, Nat.cast_one] at p1
  rw [p1, Res.ok_bind]
  split
  · exact assertPc_rule (i.setPc (intOfU32_range a ha)) (fun q => fine_pop (i.setPc (intOfU32_range a ha)) q)
  · exact fine_pop i p

/-- **Every outcome of an instruction.** -/
theorem exec_out {E : Env} {F : CFuns} (hF : FOk F) {vm : VM} (i : VInv vm) (p : PcIn vm) (hs : vm.state = .ready) (op : Op) :
    Outcome Fine (Cause E F vm op) (exec E F vm op) := by
  have hne : vm.state ≠ .error := by rw [hs]; simp
  have same : ∀ {v : VM}, Same vm v → VInv v ∧ PcIn v := by
    rintro v ⟨h1, h2, h3⟩
    exact ⟨h1, by unfold PcIn; rw [h2, h3]; exact p⟩
  have after : ∀ {w : VM} {C : Bad → Prop} {r : Res VM}, PcIn w → Outcome (Same w) C r → Outcome Fine C r := by
    intro w C r q h
    refine h.mono (fun v hv => ⟨hv.1, fun _ => ?_⟩) (fun _ h => h)
    unfold PcIn
    rw [hv.2.1, hv.2.2]
    exact q
  have inc : ∀ {C : Bad → Prop} {v : VM}, Same vm v → Outcome Fine C (incPc v pure) :=
    fun h => incPc_rule (same h).1 (same h).2 (fun q j => pure_rule j q)
  have incR : ∀ {C : Bad → Prop} {v : VM}, Same vm v → Outcome Fine C (ifReady v (fun v => incPc v pure)) := by
    intro C v h
    unfold ifReady
    split
    · exact inc h
    · rename_i hn
      exact ⟨h.1, fun h => absurd h hn⟩
  have asr : ∀ {C : Bad → Prop} {v : VM}, VInv v → Outcome Fine C (ifReady v (fun v => assertPc v pure)) := by
    intro C v h
    unfold ifReady
    split
    · exact assertPc_rule h (fun q => pure_rule h q)
    · rename_i hn
      exact ⟨h, fun h => absurd h hn⟩
  have arg : ∀ {C : Bad → Prop} {k : VM → Nat → Res VM}, (∀ v a, a < 4294967296 → rd32 E.endian vm.code (vm.pc.toNat + 1) = .ok a → PcIn v → VInv v →
      v = { vm with pc := v.pc } → Outcome Fine C (k v a)) → Outcome Fine C (incPc vm (fun vm => getArg E vm k)) := by
    intro C k hk
    refine incPc_rule i p (fun q j => getArg_rule j q (fun a ha hrd q' j' => hk _ a ha ?_ q' j' rfl))
    have e : (vm.pc + 1).toNat = vm.pc.toNat + 1 := by have := p.1; omega
    rw [← e]; exact hrd
  cases op with
  | nop => exact incPc_rule i p (fun q j => pure_rule j q)
  | done => exact ⟨{ i with depth := fun _ => i.depth hne }, fun h => by cases h⟩
  | pushnil => exact incPc_rule i p (fun q j => ⟨j.push trivial, fun _ => q⟩)
  | dup =>
    refine incPc_rule i p (fun q j => ⟨j.dup, fun _ => ?_⟩)
    unfold dup
    split <;> exact q
  | pop =>
    refine incR ⟨i.pop, ?_, ?_⟩
    · unfold pop; split <;> rfl
    · unfold pop; split <;> rfl
  | ret0 => exact (ret0_out i hne (fun h => .outside h (by simp))).bind (fun v hv => asr hv)
  | ret1 => exact (ret1_out i hne (fun h => .outside h (by simp))).bind (fun v hv => asr hv)
  | bin b => exact (binop_out i b).bind (fun v hv => inc hv)
  | un u => exact (unop_out i u).bind (fun v hv => inc hv)
  | gload => exact incPc_rule i p (fun q j => after q (gload_out j))
  | gstore => exact incPc_rule i p (fun q j => after q (gstore_out j))
  | pusht => exact inc ⟨i.push ⟨by simp [Table.new, Dict.new], by intro e he; rw [Table.new, Dict.entries_new] at he; simp at he⟩, rfl, rfl⟩
  | tput => exact (tput_out i).bind (fun v hv => incR hv)
  | tget => exact (tget_out i).bind (fun v hv => incR hv)
  | callc => exact incPc_rule i p (fun q j => (call_out (vm := { vm with pc := vm.pc + 1 }) (E := E) (vm0 := vm) j hF hs false (op := .callc) (by simp) rfl rfl).bind (fun v hv => asr hv))
  | calls => exact incPc_rule i p (fun q j => (call_out (vm := { vm with pc := vm.pc + 1 }) (E := E) (vm0 := vm) j hF hs true (op := .calls) (by simp) rfl rfl).bind (fun v hv => asr hv))
  | pushf => exact arg (fun v a ha _ q j _ => ⟨j.push trivial, fun _ => q⟩)
  | pushi => exact arg (fun v a ha _ q j _ => ⟨j.push (intOfU32_range a ha), fun _ => q⟩)
  | pushs =>
    refine arg (fun v a ha _ q j _ => ⟨j.pushS a, fun _ => ?_⟩)
    unfold pushS
    split <;> exact q
  | pushcn => exact arg (fun v a ha _ q j _ => ⟨j.pushC (intOfU32_range a ha) _, fun _ => q⟩)
  | pushcc => exact arg (fun v a ha _ q j _ => ⟨j.pushC (intOfU32_range a ha) _, fun _ => q⟩)
  | pushl =>
    refine arg (fun v a ha _ q j _ => ⟨j.pushL (intOfU32_range a ha), fun _ => ?_⟩)
    unfold pushL
    split <;> exact q
  | lload =>
    refine arg (fun v a ha hr q j e => after q (lload_out j a (fun h => .outside ?_ (by simp))))
    rw [e] at h; exact h
  | lstore =>
    refine arg (fun v a ha hr q j e => after q (lstore_out j a (fun h => .outside ?_ (by simp)) (fun f fs h hlt => .gap (fs := fs) hr ?_ hlt)))
    · rw [e] at h; exact h
    · rw [e] at h; exact h
  | lremove =>
    refine arg (fun v a ha hr q j e => after q (lremove_out j a (fun h => .outside ?_ (by simp))))
    rw [e] at h; exact h
  | jump => exact arg (fun v a ha _ q j _ => assertPc_rule (j.setPc (intOfU32_range a ha)) (fun q' => pure_rule (j.setPc (intOfU32_range a ha)) q'))
  | jumpz => exact arg (fun v a ha _ q j _ => jump_rule j q a ha _)
  | jumpnz => exact arg (fun v a ha _ q j _ => jump_rule j q a ha _)

theorem Cause.back {E : Env} {F : CFuns} {vm : VM} {h' : Heap} {sm' : Strman.SM Bytes} (hb : ∀ a c, Holds h' a c → Holds vm.heap a c)
    {op : Op} {b : Bad} (c : Cause E F { vm with heap := h', strings := sm' } op b) : Cause E F vm op b := by
  have hv : ∀ {i o}, Val { vm with heap := h', strings := sm' } i o → Val vm i o := by
    rintro i o ⟨a, c, h1, h2, h3⟩
    exact ⟨a, c, h1, hb _ _ h2, h3⟩
  have hat : ∀ {i c}, At { vm with heap := h', strings := sm' } i c → At vm i c := by
    rintro i o ⟨a, h1, h2⟩
    exact ⟨a, h1, hb _ _ h2⟩
  cases c with
  | undef h1 h2 h3 => exact .undef (hv h1) (hv h2) h3
  | nocmp h0 h1 h2 h3 => exact .nocmp h0 (hv h1) (hv h2) h3
  | neg h1 => exact .neg (hv h1)
  | putKey h1 h2 => exact .putKey (hv h1) h2
  | getKey h1 h2 => exact .getKey (hv h1) h2
  | badKey h1 h2 h3 => exact .badKey (hat h1) (hv h2) h3
  | outside h1 h2 => exact .outside h1 h2
  | gap h1 h2 h3 => exact .gap h1 h2 h3
  | argn h1 h2 h3 => exact .argn h1 (hv h2) h3
  | cref h1 h2 h3 h4 => exact .cref h1 (hv h2) (hat h3) h4
  | cfun h1 h2 h3 h4 h5 => exact .cfun h1 (hv h2) (hat h3) h4 h5

/-- The instruction at the program counter. -/
def Fetched (vm : VM) (op : Op) : Prop := ∃ n, rd vm.code vm.pc.toNat = .ok n ∧ opcodes[n]? = some op

/-- **Every outcome of a step.** -/
theorem step_out {E : Env} {F : CFuns} (hF : FOk F) {vm : VM} (i : VInv vm) (p : vm.state = .ready → PcIn vm) :
    Outcome Fine (fun b => vm.state = .ready ∧ ∃ op, Fetched vm op ∧ Cause E F vm op b) (step E F vm) := by
  unfold step
  split
  · rename_i h
    exact ⟨i, fun h' => absurd h' h⟩
  · rename_i h
    have hs : vm.state = .ready := not_not.mp h
    have p := p hs
    obtain ⟨h', sm', e, j, hb, _, _⟩ := collect_spec i
    rw [e, Res.ok_bind]
    obtain ⟨n, hn, _⟩ := rd_ok (buf := vm.code) (i := vm.pc.toNat) (by have := p.1; have := p.2; omega)
    have hf : fetch { vm with heap := h', strings := sm' } = .ok n := by
      unfold fetch
      rw [if_neg (by have := p.1; show ¬ vm.pc < 0; omega)]
      exact hn
    rw [hf, Res.ok_bind]
    cases ho : opcodes[n]? with
    | none => exact fine_err j _
    | some op =>
      exact (exec_out hF j p hs op).mono (fun _ h => h) (fun b hc => ⟨hs, op, ⟨n, hn, ho⟩, hc.back hb⟩)

end Buzz.VM
