import Verif.TypeLib

/-
The table `neighbors`, src/buzz/buzzneighbors.c: what the host writes into it, and the functions that read it, as C functions of the machine.

`foreach`, `map`, `reduce`, `filter`, `kin` and `nonkin` are in `Verif/NbrRun.lean`; `broadcast`, `listen` and `ignore` are in `Verif/Listen.lean` and
`Verif/Radio.lean`.
-/
namespace Buzz.VM

open Buzz.F32 Buzz.Msg Buzz.Heap Buzz.MathLib

/-- `buzzvm_pushs(vm, buzzvm_string_register(vm, x, 1))`. -/
def pushName (x : String) (vm : VM) : Res VM := do
  let r ← Strman.register vm.strings (ascii x) true
  pure (pushS { vm with strings := r.1 } r.2)

/-- The table with the data on top of the stack: `buzzneighbors_get` 321-325, `buzzneighbors_count` 615-619. -/
def nbrPoses (E : Env) (vm : VM) : Res VM := do
  let vm ← lload vm 0
  let vm ← pushName "poses" vm
  tget E vm

/-- `buzzneighbors_get` (319-338).  Like the C code, it goes on after an error of `buzzvm_tget`. -/
def nbrGet (E : Env) (vm : VM) : Res VM := do
  let k ← lnum vm
  if k ≠ 1 then pure (setErr vm .lnum)
  else do
    let vm ← nbrPoses E vm
    let o ← peek vm 1
    match o with
    | .nil => ret1 (pushNil vm)
    | _ => do
      let vm ← lload vm 1
      let vm ← tget E vm
      ret1 vm

/-- `buzzneighbors_count` (613-626).  What is on top of the stack is read as a table whatever it is; `buzzdarray_size` is a macro (buzzdarray.h) that
reads the member `size`, here that of the table. -/
def nbrCount (E : Env) (vm : VM) : Res VM := do
  let k ← lnum vm
  if k ≠ 0 then pure (setErr vm .lnum)
  else do
    let vm ← nbrPoses E vm
    let c ← peekCell vm 1
    match c with
    | .atom .nil => ret1 (pushInt vm 0)
    | .tab t => ret1 (pushInt vm (intOfU32 (t.size % 4294967296)))
    | _ => .ub

/-! ### What the host writes -/

/-- `buzzneighbors_reset` (67-79). -/
def nbrReset (E : Env) (vm : VM) : Res VM :=
  if vm.state ≠ .ready then pure vm
  else do
    let vm ← pushName "neighbors" vm
    let vm ← gload vm
    let o ← peek vm 1
    match o with
    | .tab _ => do
      let vm ← pushName "poses" vm
      tput E (pushT vm)
    | _ => pure (setErr vm .type)

/-- An entry of the table at `entry`: `buzzneighbors_add` 114-117, 119-122, 124-127. -/
def nbrField (E : Env) (entry : Nat) (x : String) (w : Nat) (vm : VM) : Res VM := do
  let vm ← pushName x (pushAddr vm entry)
  tput E (pushFlt vm (ofBits w))

/-- If there is no table with the data yet, it is made: `buzzneighbors_add` 98-107. -/
def nbrData (E : Env) (nbr : Nat) (vm : VM) : Res VM := do
  let o ← peek vm 1
  match o with
  | .nil => do
    let vm ← pushName "poses" (pushAddr (pop vm) nbr)
    let vm := pushT vm
    let data ← peekAddr vm 1
    let vm ← tput E vm
    pure (pushAddr vm data)
  | _ => pure vm

/-- The entry of a robot: `buzzneighbors_add` 110-130. -/
def nbrEntry (E : Env) (robot d a e : Nat) (vm : VM) : Res VM := do
  let vm := pushInt vm (robot : Int)
  let x := newobj vm.heap (.tab Table.new)
  let vm ← nbrField E x.2 "distance" d { vm with heap := x.1 }
  let vm ← nbrField E x.2 "azimuth" a vm
  let vm ← nbrField E x.2 "elevation" e vm
  tput E (pushAddr vm x.2)

/-- `buzzneighbors_add` (84-131), the distance and the angles by the bits of the floats. -/
def nbrAdd (E : Env) (robot d a e : Nat) (vm : VM) : Res VM :=
  if vm.state ≠ .ready then pure vm
  else do
    let vm ← pushName "neighbors" vm
    let vm ← gload vm
    let o ← peek vm 1
    match o with
    | .tab _ => do
      let nbr ← peekAddr vm 1
      let vm ← pushName "poses" vm
      let vm ← tget E vm
      let vm ← nbrData E nbr vm
      nbrEntry E robot d a e vm
    | _ => pure (setErr vm .type)

end Buzz.VM
