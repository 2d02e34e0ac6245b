import Verif.StringLib

/-
The math library, src/buzz/buzzmath.c: rounding functions, min, max and the random number generator.

The generator is state of the virtual machine in C (`vm->rngstate`, `vm->rngidx`); here it is passed beside the machine.  Not modelled:
`buzzmath_register` and the functions that only call the C mathematics library (log, exp, sqrt, sin, …).
-/
namespace Buzz.MathLib

open Buzz.F32 Buzz.Msg Buzz.Heap Buzz.VM

/-! ### Mersenne twister -/

/-- `vm->rngstate` and `vm->rngidx`.  The words are `int32_t` in C, here their bits. -/
structure Rng where
  words : List UInt32
  idx : Nat
  deriving DecidableEq

/-- `rngstate[i]`. -/
def rd (ws : List UInt32) (i : Nat) : Res UInt32 :=
  match ws[i]? with
  | some x => .ok x
  | none => .ub

/-- `rngstate[i] = x`. -/
def wr (ws : List UInt32) (i : Nat) (x : UInt32) : Res (List UInt32) := if i < ws.length then .ok (ws.set i x) else .ub

/-- `x >> 30` on an `int32_t`: the sign bit is copied. -/
def asr30 (x : UInt32) : UInt32 := if x < 0x80000000 then x >>> 30 else (x >>> 30) ||| 0xFFFFFFFC

/-- Lines 26-28: the product is computed with 64 bits and cut to 32. -/
def seedWord (x : UInt32) (i : Nat) : UInt32 := 1812433253 * (x ^^^ asr30 x) + UInt32.ofNat i

/-- The loop of `mt_setseed` (25-29), `n` more rounds from index `i`. -/
def seedLoop : Nat → Nat → List UInt32 → Res (List UInt32)
  | 0, _, ws => .ok ws
  | n + 1, i, ws => do
    let x ← rd ws (i - 1)
    let ws ← wr ws i (seedWord x i)
    seedLoop n (i + 1) ws

/-- `mt_setseed` (22-30). -/
def setSeed (seed : UInt32) (r : Rng) : Res Rng := do
  let ws ← wr r.words 0 seed
  let ws ← seedLoop 623 1 ws
  pure ⟨ws, 624⟩

/-- Lines 40-41: two words and the bits of a third. -/
def mix (x y z : UInt32) : UInt32 :=
  let v := (x &&& 0x80000000) ||| (y &&& 0x7fffffff)
  z ^^^ (v >>> 1) ^^^ (if v &&& 1 = 1 then 0x9908b0df else 0)

/-- The loops of `mt_uniform32` (39-46), `n` more rounds from index `k`; `src` gives the index of the third word. -/
def genLoop (src : Nat → Nat) : Nat → Nat → List UInt32 → Res (List UInt32)
  | 0, _, ws => .ok ws
  | n + 1, k, ws => do
    let x ← rd ws k
    let y ← rd ws (k + 1)
    let z ← rd ws (src k)
    let ws ← wr ws k (mix x y z)
    genLoop src n (k + 1) ws

/-- The generation of 624 words (37-48). -/
def generate (ws : List UInt32) : Res (List UInt32) := do
  let ws ← genLoop (· + 397) 227 0 ws
  let ws ← genLoop (· - 227) 396 227 ws
  let x ← rd ws 623
  let y ← rd ws 0
  let z ← rd ws 396
  wr ws 623 (mix x y z)

/-- Tempering (51-55). -/
def temper (y : UInt32) : UInt32 :=
  let y := y ^^^ (y >>> 11)
  let y := y ^^^ ((y <<< 7) &&& 0x9d2c5680)
  let y := y ^^^ ((y <<< 15) &&& 0xefc60000)
  y ^^^ (y >>> 18)

/-- `mt_uniform32` (32-57). -/
def uniform32 (r : Rng) : Res (UInt32 × Rng) := do
  let r ← if r.idx ≥ 624 then do
      let ws ← generate r.words
      pure (⟨ws, 0⟩ : Rng)
    else pure r
  let y ← rd r.words r.idx
  pure (temper y, { r with idx := r.idx + 1 })

/-! ### The functions of `math.rng` -/

/-- Conversion of an `int32_t` to `uint64_t`. -/
def u64 (v : Int) : Nat := (v % 18446744073709551616).toNat

/-- Conversion of a `uint64_t` to `int32_t` (the argument of `buzzvm_pushi`). -/
def toI32 (n : Nat) : Int := intOfU32 (n % 4294967296)

/-- `(uint64_t)u * d / INT_MAX` (505, 533), all in 64 bits. -/
def scale (u : UInt32) (d : Int) : Nat := u.toNat * u64 d % 18446744073709551616 / 4294967295

/-- `u * d / INT_MAX` in floats (510, 540, 546, 552). -/
def scaleF (u : UInt32) (d : Flt) : Flt := divF (mulF (toFlt u.toNat) d) (toFlt 4294967295)

/-- `buzzvm_pushf`. -/
def pushFlt (vm : VM) (f : Flt) : VM := push vm (.atom (.flt f))

/-- `a - b` on floats. -/
def subF (a b : Flt) : Flt := addF a (negF b)

/-- `buzzmath_rng_setseed` (465-473). -/
def rngSetSeed (r : Rng) (vm : VM) : Res (Rng × VM) := do
  let k ← lnum vm
  if k ≠ 1 then pure (r, setErr vm .lnum)
  else do
    let vm ← lload vm 1
    let o ← peek vm 1
    match o with
    | .int v => do
      let r ← setSeed (UInt32.ofNat (v % 4294967296).toNat) r
      let vm ← ret0 vm
      pure (r, vm)
    | _ => pure (r, setErr vm .type)

/-- The difference of two integers; signed overflow is undefined. -/
def diffI (a b : Int) : Res Int := if -2147483648 ≤ a - b ∧ a - b ≤ 2147483647 then .ok (a - b) else .ub

/-- `buzzmath_rng_uniform` (478-566). -/
def rngUniform (r : Rng) (vm : VM) : Res (Rng × VM) := do
  let k ← lnum vm
  if k = 0 then do
    let x ← uniform32 r
    let vm ← ret1 (pushInt vm (toI32 x.1.toNat))
    pure (x.2, vm)
  else if k = 1 then do
    let vm ← lload vm 1
    let o ← peek vm 1
    match o with
    | .int m => do
      let x ← uniform32 r
      let vm ← ret1 (pushInt vm (toI32 (scale x.1 m)))
      pure (x.2, vm)
    | .flt m => do
      let x ← uniform32 r
      let vm ← ret1 (pushFlt vm (scaleF x.1 m))
      pure (x.2, vm)
    | _ => pure (r, setErr vm .type)
  else if k = 2 then do
    let vm ← lload vm 1
    let vm ← lload vm 2
    let a ← peek vm 2
    let b ← peek vm 1
    match a, b with
    | .int a, .int b => do
      let d ← diffI b a
      let x ← uniform32 r
      let vm ← ret1 (pushInt vm (toI32 ((scale x.1 d + u64 a) % 18446744073709551616)))
      pure (x.2, vm)
    | .flt a, .int b => do
      let x ← uniform32 r
      let vm ← ret1 (pushFlt vm (addF (scaleF x.1 (subF (toFlt b) a)) a))
      pure (x.2, vm)
    | .int a, .flt b => do
      let x ← uniform32 r
      let vm ← ret1 (pushFlt vm (addF (scaleF x.1 (subF b (toFlt a))) (toFlt a)))
      pure (x.2, vm)
    | .flt a, .flt b => do
      let x ← uniform32 r
      let vm ← ret1 (pushFlt vm (addF (scaleF x.1 (subF b a)) a))
      pure (x.2, vm)
    | _, _ => pure (r, setErr vm .type)
  else pure (r, setErr vm .lnum)

/-- A number argument as a float (584-585, 600-601). -/
def numArg (o : Obj) : Option Flt := num o

/-- `buzzmath_rng_gaussian` (571-634).  The sampling (624-632) is a parameter: it maps standard deviation and mean to a number. -/
def rngGaussian (sample : Flt → Flt → Rng → Res (Flt × Rng)) (r : Rng) (vm : VM) : Res (Rng × VM) := do
  let finish := fun (sd mean : Flt) (vm : VM) => (do
    let x ← sample sd mean r
    let vm ← ret1 (pushFlt vm x.1)
    pure (x.2, vm) : Res (Rng × VM))
  let k ← lnum vm
  if k > 0 then do
    let vm ← lload vm 1
    let o ← peek vm 1
    match numArg o with
    | none => pure (r, setErr vm .type)
    | some sd =>
      if k = 2 then do
        let vm ← lload vm 1
        let o ← peek vm 1
        match numArg o with
        | none => pure (r, setErr vm .type)
        | some mean => finish sd mean vm
      else pure (r, setErr vm .lnum)
  else finish (.fin 1) (.fin 0) vm

/-- `buzzmath_rng_exponential` (639-650), as far as the argument: it is taken from the stack, not from the arguments. -/
def rngExponential (sample : Flt → Rng → Res (Flt × Rng)) (r : Rng) (vm : VM) : Res (Rng × VM) := do
  let k ← lnum vm
  if k ≠ 1 then pure (r, setErr vm .lnum)
  else do
    let o ← peek vm 1
    match numArg o with
    | none => pure (r, setErr vm .type)
    | some mean => do
      let x ← sample mean r
      let vm ← ret1 (pushFlt vm x.1)
      pure (x.2, vm)

/-! ### Rounding, absolute value, minimum and maximum -/

/-- Conversion of an integral float or double to `int32_t`: undefined out of range. -/
def toI32c (n : Int) : Res Int := if -2147483648 ≤ n ∧ n ≤ 2147483647 then .ok n else .ub

/-- `round` of the C library: to the nearest integer, halves away from zero. -/
def roundAway (q : ℚ) : Int := if 0 ≤ q then ⌊q + 1 / 2⌋ else ⌈q - 1 / 2⌉

/-- `buzzmath_floor`, `buzzmath_ceil`, `buzzmath_round` (162-202), with the function of the C library.  Infinities and NaN have no
conversion to integers. -/
def mathRound (f : ℚ → Int) (vm : VM) : Res VM := do
  let k ← lnum vm
  if k ≠ 1 then pure (setErr vm .lnum)
  else do
    let vm ← lload vm 1
    let o ← peek vm 1
    match o with
    | .flt (.fin q) => do
      let n ← toI32c (f q)
      ret1 (pushInt vm n)
    | .flt _ => .ub
    | .int v => ret1 (pushInt vm v)
    | _ => pure (setErr vm .type)

/-- `fabsf`. -/
def absF : Flt → Flt
  | .fin q => .fin |q|
  | .inf _ => .inf false
  | .nan => .nan

/-- `buzzmath_abs` (146-157). -/
def mathAbs (vm : VM) : Res VM := do
  let k ← lnum vm
  if k ≠ 1 then pure (setErr vm .lnum)
  else do
    let vm ← lload vm 1
    let o ← peek vm 1
    match o with
    | .flt f => ret1 (pushFlt vm (absF f))
    | .int v => do
      let n ← toI32c |v|
      ret1 (pushInt vm n)
    | _ => pure (setErr vm .type)

/-- `buzzmath_min` (427-441) with `first c := c ≠ 1` and `buzzmath_max` (446-460) with `first c := c ≥ 0`. -/
def mathPick (E : Env) (first : Int → Bool) (vm : VM) : Res VM := do
  let k ← lnum vm
  if k ≠ 2 then pure (setErr vm .lnum)
  else do
    let vm ← lload vm 1
    let a ← peekAddr vm 1
    let x ← peek vm 1
    let vm ← lload vm 2
    let b ← peekAddr vm 1
    let y ← peek vm 1
    let c ← Obj.cmp E.sc x y
    ret1 (pushAddr vm (if first c then a else b))

/-- `buzzmath_min`. -/
def mathMin (E : Env) : VM → Res VM := mathPick E (fun c => decide (c ≠ 1))

/-- `buzzmath_max`. -/
def mathMax (E : Env) : VM → Res VM := mathPick E (fun c => decide (c ≥ 0))

end Buzz.MathLib
