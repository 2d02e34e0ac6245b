import Verif.MathLib

/-
Functions on types and tables, src/buzz/buzztype.c, as C functions of the machine.

`foreach`, `map`, `reduce` and `filter`, which call functions of the script, are in HofRun.lean.
-/
namespace Buzz.VM

open Buzz.F32 Buzz.Msg Buzz.Heap Buzz.MathLib

/-- `o.type` (buzztype.h 24-30) and its name in `buzztype_desc` (buzztype.c 10). -/
def typeDesc : Obj → String
  | .nil => "nil"
  | .int _ => "integer"
  | .flt _ => "float"
  | .str _ _ => "string"
  | .tab _ => "table"
  | .clo _ => "closure"
  | .user _ => "userdata"

/-- The bytes of a string constant of the C code. -/
def ascii (s : String) : Bytes := s.toList.map (fun c => UInt8.ofNat c.toNat)

/-- `buzzobj_type` (222-231). -/
def objType (vm : VM) : Res VM := do
  let k ← lnum vm
  if k ≠ 1 then pure (setErr vm .lnum)
  else do
    let vm ← lload vm 1
    let o ← peek vm 1
    let vm ← pushStr (popN vm 1) (ascii (typeDesc o))
    ret1 vm

/-- Conversion of a float to an integer: towards zero. -/
def truncate (q : ℚ) : Int := if 0 ≤ q then ⌊q⌋ else ⌈q⌉

/-- `buzzobj_int` (236-245).  The conversion to `int32_t` is undefined for numbers out of range, infinities and NaN. -/
def objInt (vm : VM) : Res VM := do
  let k ← lnum vm
  if k ≠ 1 then pure (setErr vm .lnum)
  else do
    let vm ← lload vm 1
    let o ← peek vm 1
    match o with
    | .flt (.fin q) => do
      let n ← toI32c (truncate q)
      ret1 (pushInt (popN vm 1) n)
    | .flt _ => .ub
    | _ => pure (setErr vm .type)

/-- `buzzobj_float` (250-259). -/
def objFloat (vm : VM) : Res VM := do
  let k ← lnum vm
  if k ≠ 1 then pure (setErr vm .lnum)
  else do
    let vm ← lload vm 1
    let o ← peek vm 1
    match o with
    | .int v => ret1 (pushFlt (popN vm 1) (toFlt v))
    | _ => pure (setErr vm .type)

/-- `buzzobj_size` (278-288).  The size of the dictionary is passed as a 32-bit number. -/
def objSize (vm : VM) : Res VM := do
  let k ← lnum vm
  if k ≠ 1 then pure (setErr vm .lnum)
  else do
    let vm ← lload vm 1
    let c ← peekCell vm 1
    match c with
    | .tab t => ret1 (pushInt (popN vm 1) (intOfU32 (t.size % 4294967296)))
    | _ => pure (setErr vm .type)

/-- `buzzobj_closure_isnil`, … (631-650): whether the argument has the type with this name. -/
def objIs (name : String) (vm : VM) : Res VM := do
  let k ← lnum vm
  if k ≠ 1 then pure (setErr vm .lnum)
  else do
    let vm ← lload vm 1
    let o ← peek vm 1
    ret1 (pushInt vm (if typeDesc o = name then 1 else 0))

end Buzz.VM
