import Verif.Props.Pitfalls
import Verif.InstallSim

/-
What reading and writing of tables do with keys that are not allowed (C13): `buzzvm_tput`, `buzzvm_tget` (buzzvm.c 1273-1332) and the hash of a key (buzztype.c 16-32).
-/
namespace Buzz.Props

open Buzz.VM Buzz.F32 Buzz.Msg Buzz.Heap

variable {E : Env} {vm : VM}

/-- A value that may be a key: an integer, a float or a string. -/
def KeyType : Cell → Prop
  | .atom (.int _) | .atom (.flt _) | .atom (.str _ _) => True
  | _ => False

theorem isKey_of {a : Nat} {c : Cell} : isKey (objOf a c) = true ↔ KeyType c := by
  cases c with
  | atom o => cases o <;> simp [objOf, isKey, KeyType]
  | tab t => simp [objOf, isKey, KeyType]
  | clo n r l => simp [objOf, isKey, KeyType]

/-- **C13** A value that is not an integer, a float or a string is refused as key when an entry is written: the machine stops with a type error, the operands are gone and no table has changed. -/
theorem C13_write_bad_key {va ka ta : Nat} {st : List Nat} {v k : Cell} {t : Table.Tbl (Nat × Nat)} (hs : vm.stack = va :: ka :: ta :: st) (hv : Holds vm.heap va v) (hk : Holds vm.heap ka k)
    (ht : Holds vm.heap ta (.tab t)) (hb : ¬ KeyType k) : tput E vm = .ok { vm with stack := st, state := .error, error := .type } := by
  obtain ⟨a1, g1, _, p1, p2, p3⟩ := At.peekCell (vm := vm) (i := 0) ⟨va, by rw [hs]; rfl, hv⟩
  obtain ⟨a2, g2, _, q1, q2, q3⟩ := At.peekCell (vm := vm) (i := 1) ⟨ka, by rw [hs]; rfl, hk⟩
  obtain ⟨a3, g3, _, r1, r2, r3⟩ := At.peekCell (vm := vm) (i := 2) ⟨ta, by rw [hs]; rfl, ht⟩
  have hn : ¬ isKey (objOf a2 k) = true := fun h => hb (isKey_of.mp h)
  simp only [Nat.zero_add, Nat.reduceAdd, Nat.cast_ofNat, Nat.cast_one] at *
  unfold tput need
  rw [if_neg (by rw [hs]; simp only [List.length_cons]; omega), r1, Res.ok_bind, r2, Res.ok_bind]
  simp only
  rw [p1, Res.ok_bind, p2, Res.ok_bind, q1, Res.ok_bind, q3, Res.ok_bind, if_neg hn]
  have : popN vm 3 = { vm with stack := st } := by simp [popN, hs]
  rw [this]
  rfl

/-- **A defect** (C13) Reading an entry with such a key is undefined: the message of the error takes a number for a string (buzzvm.c 1325). -/
theorem C13_read_bad_key {ka ta : Nat} {st : List Nat} {k : Cell} {t : Table.Tbl (Nat × Nat)} (hs : vm.stack = ka :: ta :: st) (hk : Holds vm.heap ka k)
    (ht : Holds vm.heap ta (.tab t)) (hb : ¬ KeyType k) : tget E vm = .ub := by
  obtain ⟨a2, g2, _, q1, q2, q3⟩ := At.peekCell (vm := vm) (i := 0) ⟨ka, by rw [hs]; rfl, hk⟩
  obtain ⟨a3, g3, _, r1, r2, r3⟩ := At.peekCell (vm := vm) (i := 1) ⟨ta, by rw [hs]; rfl, ht⟩
  have hn : ¬ isKey (objOf a2 k) = true := fun h => hb (isKey_of.mp h)
  simp only [Nat.zero_add, Nat.reduceAdd, Nat.cast_ofNat, Nat.cast_one] at *
  unfold tget need
  rw [if_neg (by rw [hs]; simp only [List.length_cons]; omega), r2, Res.ok_bind]
  simp only
  rw [q3, Res.ok_bind, if_neg hn]

/-- The hash of a float is defined just if the float is greater than -1 and less than 2^32. -/
theorem float_hash (q : ℚ) : (∃ n, Obj.tableHash (.flt (.fin q)) = .ok n) ↔ -1 < q ∧ q < 4294967296 := by
  have key : (∃ n, Obj.tableHash (.flt (.fin q)) = .ok n) ↔ (0 ≤ (if 0 ≤ q then ⌊q⌋ else ⌈q⌉) ∧ (if 0 ≤ q then ⌊q⌋ else ⌈q⌉) < 4294967296) := by
    simp only [Obj.tableHash, Obj.toU32]
    by_cases h : 0 ≤ (if 0 ≤ q then ⌊q⌋ else ⌈q⌉) ∧ (if 0 ≤ q then ⌊q⌋ else ⌈q⌉) < 4294967296
    · rw [if_pos h]
      exact ⟨fun _ => h, fun _ => ⟨_, rfl⟩⟩
    · rw [if_neg h]
      exact ⟨fun ⟨_, e⟩ => (by cases e), fun e => absurd e h⟩
  rw [key]
  by_cases h0 : 0 ≤ q
  · simp only [if_pos h0]
    rw [Int.floor_nonneg, Int.floor_lt]
    constructor
    · rintro ⟨_, h⟩
      exact ⟨by linarith, by exact_mod_cast h⟩
    · rintro ⟨_, h⟩
      exact ⟨h0, by exact_mod_cast h⟩
  · simp only [if_neg h0]
    have h1 : ⌈q⌉ ≤ 0 := Int.ceil_le.mpr (by push_cast; linarith)
    constructor
    · rintro ⟨h, _⟩
      have : (-1 : ℤ) < ⌈q⌉ := by omega
      have := Int.lt_ceil.mp this
      exact ⟨by exact_mod_cast this, by linarith⟩
    · rintro ⟨h, _⟩
      have : (-1 : ℤ) < ⌈q⌉ := Int.lt_ceil.mpr (by exact_mod_cast h)
      exact ⟨by omega, by omega⟩

theorem float_hash_ub {f : Flt} (hf : ∀ q, f = .fin q → q ≤ -1 ∨ 4294967296 ≤ q) : Obj.tableHash (.flt f) = .ub := by
  cases f with
  | fin q =>
    have h : ¬ ∃ n, Obj.tableHash (.flt (.fin q)) = .ok n := fun h => by
      have := (float_hash q).mp h
      rcases hf q rfl with h1 | h1
      · linarith
      · linarith
    simp only [Obj.tableHash, Obj.toU32] at h ⊢
    by_cases h2 : 0 ≤ (if 0 ≤ q then ⌊q⌋ else ⌈q⌉) ∧ (if 0 ≤ q then ⌊q⌋ else ⌈q⌉) < 4294967296
    · rw [if_pos h2] at h
      exact absurd ⟨_, rfl⟩ h
    · rw [if_neg h2]
      rfl
  | _ => rfl

/-- **A defect** (C13) Reading or writing an entry with a float key that is at most -1, at least 2^32, infinite or NaN is undefined: the float is converted to an unsigned integer (buzztype.c 23). -/
theorem C13_float_key {ka ta : Nat} {st : List Nat} {f : F32.Flt} {t : Table.Tbl (Nat × Nat)} (hk : Holds vm.heap ka (.atom (.flt f))) (ht : Holds vm.heap ta (.tab t))
    (hf : ∀ q, f = .fin q → q ≤ -1 ∨ 4294967296 ≤ q) :
    (vm.stack = ka :: ta :: st → tget E vm = .ub) ∧ ∀ va v, vm.stack = va :: ka :: ta :: st → Holds vm.heap va v → tput E vm = .ub := by
  have hc : Table.check E.sc t (.flt f) = .ub := by
    unfold Table.check
    rw [float_hash_ub hf]
    rfl
  refine ⟨fun hs => ?_, fun va v hs hv => ?_⟩
  · obtain ⟨a2, g2, _, q1, q2, q3⟩ := At.peekCell (vm := vm) (i := 0) ⟨ka, by rw [hs]; rfl, hk⟩
    obtain ⟨a3, g3, _, r1, r2, r3⟩ := At.peekCell (vm := vm) (i := 1) ⟨ta, by rw [hs]; rfl, ht⟩
    simp only [Nat.zero_add, Nat.reduceAdd, Nat.cast_ofNat, Nat.cast_one, objOf] at q3 r2
    unfold tget need
    rw [if_neg (by rw [hs]; simp only [List.length_cons]; omega), r2, Res.ok_bind]
    simp only
    rw [q3, Res.ok_bind, if_pos (show isKey (.flt f) = true from rfl)]
    unfold Table.get
    rw [hc]
    rfl
  · obtain ⟨a1, g1, _, p1, p2, p3⟩ := At.peekCell (vm := vm) (i := 0) ⟨va, by rw [hs]; rfl, hv⟩
    obtain ⟨a2, g2, _, q1, q2, q3⟩ := At.peekCell (vm := vm) (i := 1) ⟨ka, by rw [hs]; rfl, hk⟩
    obtain ⟨a3, g3, _, r1, r2, r3⟩ := At.peekCell (vm := vm) (i := 2) ⟨ta, by rw [hs]; rfl, ht⟩
    simp only [Nat.zero_add, Nat.reduceAdd, Nat.cast_ofNat, Nat.cast_one, objOf] at p1 p2 q1 q3 r1 r2
    unfold tput need
    rw [if_neg (by rw [hs]; simp only [List.length_cons]; omega), r1, Res.ok_bind, r2, Res.ok_bind]
    simp only
    rw [p1, Res.ok_bind, p2, Res.ok_bind, q1, Res.ok_bind, q3, Res.ok_bind, if_pos (show isKey (.flt f) = true from rfl)]
    unfold Table.remove Table.set
    rw [hc]
    cases v with
    | atom o => cases o <;> rfl
    | tab t => rfl
    | clo n r l => rfl

/-- **C13** The keys with which reading is defined: integers, strings, and floats greater than -1 and less than 2^32. -/
theorem C13_read_defined {ka ta : Nat} {st : List Nat} {k : Cell} {t : Table.Tbl (Nat × Nat)} {w : VM} (hs : vm.stack = ka :: ta :: st) (hk : Holds vm.heap ka k)
    (ht : Holds vm.heap ta (.tab t)) (h : tget E vm = .ok w) : (∃ i, k = .atom (.int i)) ∨ (∃ s x, k = .atom (.str s x)) ∨ ∃ q : ℚ, k = .atom (.flt (.fin q)) ∧ -1 < q ∧ q < 4294967296 := by
  by_cases hb : KeyType k
  · cases k with
    | atom o =>
      cases o with
      | int i => exact .inl ⟨i, rfl⟩
      | str s x => exact .inr (.inl ⟨s, x, rfl⟩)
      | flt f =>
        by_cases hf : ∀ q, f = .fin q → q ≤ -1 ∨ 4294967296 ≤ q
        · rw [(C13_float_key (E := E) (st := st) hk ht hf).1 hs] at h
          cases h
        · push_neg at hf
          obtain ⟨q, rfl, h1, h2⟩ := hf
          exact .inr (.inr ⟨q, rfl, h1, h2⟩)
      | _ => exact absurd hb (by simp [KeyType])
    | tab t => exact absurd hb (by simp [KeyType])
    | clo n r l => exact absurd hb (by simp [KeyType])
  · rw [C13_read_bad_key (E := E) hs hk ht hb] at h
    cases h

/-- The hypotheses hold of machines: the key nil and the key -3/2. -/
example : ∃ (vm : VM) (ka ta : Nat) (st : List Nat) (t : Table.Tbl (Nat × Nat)), VInv vm ∧ vm.stack = ka :: ta :: st ∧ Holds vm.heap ka (.atom .nil) ∧ Holds vm.heap ta (.tab t) ∧ ¬ KeyType (.atom .nil) :=
  ⟨VM.push (VM.push VM.new (.tab Table.new)) (.atom .nil), 1, 0, [], Table.new, (VM.new_inv.push (c := .tab Table.new) (Buzz.Sim.cellOk_newTab _ _)).push (c := .atom .nil) trivial, rfl, ⟨_, rfl, rfl⟩, ⟨_, rfl, rfl⟩, id⟩

example : ∃ (vm : VM) (ka ta : Nat) (st : List Nat) (t : Table.Tbl (Nat × Nat)), vm.stack = ka :: ta :: st ∧ Holds vm.heap ka (.atom (.flt (.fin (-3 / 2)))) ∧ Holds vm.heap ta (.tab t) ∧
    ∀ q, Flt.fin (-3 / 2) = .fin q → q ≤ -1 ∨ 4294967296 ≤ q :=
  ⟨VM.push (VM.push VM.new (.tab Table.new)) (.atom (.flt (.fin (-3 / 2)))), 1, 0, [], Table.new, rfl, ⟨_, rfl, rfl⟩, ⟨_, rfl, rfl⟩, fun q h => by cases h; left; norm_num⟩

/-! ### Scripts -/

def keyCode1 : Bytes := [2, 0, 116, 0, 120, 0, 0, 37, 0, 0, 0, 0, 30, 29, 37, 1, 0, 0, 0, 37, 0, 0, 0, 0, 28, 2, 32, 29, 1]

theorem keyCode1_of : codeOf "t={}\nx=t[nil]" = .ok (some keyCode1) := codeS_eq (by decide +kernel)

def keyCode2 : Bytes := [1, 0, 116, 0, 0, 37, 0, 0, 0, 0, 30, 29, 37, 0, 0, 0, 0, 28, 2, 36, 1, 0, 0, 0, 31, 1]

theorem keyCode2_of : codeOf "t={}\nt[nil]=1" = .ok (some keyCode2) := codeS_eq (by decide +kernel)

theorem keyCode1_ends : play keyCode1 = .ub := by decide +kernel

theorem keyCode2_ends : play keyCode2 = .ok (.error, .type, none) := by decide +kernel

/-- **A defect** (C13) in scripts: reading `t[nil]` is undefined, while writing it is an error. -/
theorem C13_nil_key : Behaves "t={}\nx=t[nil]" .ub ∧ Behaves "t={}\nt[nil]=1" (.ok (.error, .type, none)) :=
  ⟨⟨_, keyCode1_of, keyCode1_ends⟩, ⟨_, keyCode2_of, keyCode2_ends⟩⟩

end Buzz.Props
