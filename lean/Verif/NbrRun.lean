import Verif.HofRun
import Verif.NbrLib
import Verif.Hof

/-
`foreach`, `map`, `reduce`, `filter`, `kin` and `nonkin` of the table `neighbors` (src/buzz/buzzneighbors.c) as C functions of the machine, with real calls of
closures.  `F` and `m` are as in `Verif/HofRun.lean`.
-/
namespace Buzz.VM

open Buzz.F32 Buzz.Msg Buzz.Heap

/-! ### The table that `map`, `filter`, `kin` and `nonkin` return -/

/-- The methods of the table, in the order of their registration (buzzneighbors.c 33-40). -/
def nbrMethods : List String := ["get", "filter", "kin", "nonkin", "foreach", "map", "reduce", "count"]

/-- `function_register` (buzzneighbors.c 23-27); `buzzvm_function_register` finds the function where it was registered by `buzzneighbors_new`, first of all
functions. -/
def nbrMethod (E : Env) (ta : Nat) (x : String × Nat) (vm : VM) : Res VM := do
  let vm ← pushName x.1 (pushAddr vm ta)
  tput E (pushC vm (x.2 : Int) false)

/-- `make_table` (buzzneighbors.c 29-42): the machine and the address of the table. -/
def nbrTable (E : Env) (vm : VM) : Res (VM × Nat) := do
  let x := newobj vm.heap (.tab Table.new)
  let vm ← nbrMethods.zipIdx.foldlM (fun vm m => nbrMethod E x.2 m vm) { vm with heap := x.1, nfuns := max vm.nfuns 8 }
  pure (vm, x.2)

/-- The object `md` becomes the field `poses` of the table `ta` (241-244, 305-308, 445-448, 593-596). -/
def nbrSetPoses (E : Env) (ta md : Nat) (vm : VM) : Res VM := do
  let vm ← pushName "poses" (pushAddr vm ta)
  tput E (pushAddr vm md)

/-! ### `foreach` and `reduce` -/

/-- `neighbor_for_each` (348-358): the result of the call stays on the stack. -/
def nbrEach (E : Env) (F : CFuns) (m ca : Nat) (e : Entry3) (vm : VM) : Res VM :=
  if vm.state ≠ .ready then pure vm else closureCall E F m 2 (pushEntry ca e vm)

/-- The object at this address. -/
def cellAt (vm : VM) (a : Nat) : Res Cell := do
  let m ← deref vm.heap a
  pure m.cell

/-- `buzzneighbors_foreach` (360-383). -/
def nbrForeach (E : Env) (F : CFuns) (m : Nat) (vm : VM) : Res VM := do
  let k ← lnum vm
  if k ≠ 1 then pure (setErr vm .lnum)
  else do
    let vm ← nbrPoses E vm
    let pa ← peekAddr vm 1
    let c ← cellAt vm pa
    match c with
    | .tab _ => do
      let vm ← lload vm 1
      let cc ← peekCell vm 1
      match cc with
      | .clo _ _ _ => do
        let ca ← peekAddr vm 1
        let vm ← dictForeach (nbrEach E F m ca) pa m vm
        ret0 vm
      | _ => pure (setErr vm .type)
    | _ => ret0 vm

/-- `buzzneighbors_reduce` (497-527); `neighbor_reduce` (470-495) is the function `reduceEntry` of `reduce`. -/
def nbrReduce (E : Env) (F : CFuns) (m : Nat) (vm : VM) : Res VM := do
  let k ← lnum vm
  if k ≠ 2 then pure (setErr vm .lnum)
  else do
    let vm ← nbrPoses E vm
    let pa ← peekAddr vm 1
    let vm ← lload vm 2
    let acc ← peekAddr vm 1
    let c ← cellAt vm pa
    match c with
    | .tab _ => do
      let vm ← lload vm 1
      let cc ← peekCell vm 1
      match cc with
      | .clo _ _ _ => do
        let ca ← peekAddr vm 1
        let vm ← dictForeach (reduceEntry E F m ca) pa m (pushAddr vm acc)
        ret1 vm
      | _ => pure (setErr vm .type)
    | _ => ret1 vm

/-! ### `map` and `filter` -/

/-- `neighbor_map_each` (394-420); `ra` is the table of the results.  Unlike `map`, it stores nil.  The key is used after the call, when it may have been
collected. -/
def nbrMapEntry (E : Env) (F : CFuns) (m ca ra : Nat) (e : Entry3) (vm : VM) : Res VM :=
  if vm.state ≠ .ready then pure vm
  else do
    let ss := vm.stack.length
    let vm ← closureCall E F m 2 (pushEntry ca e vm)
    if vm.state ≠ .ready then pure vm
    else if vm.stack.length ≤ ss then pure (setErr vm .stack)
    else do
      let r ← peekAddr vm 1
      let _ ← deref vm.heap e.2.1
      let t ← tabAt vm ra
      let t' ← Table.set E.sc t e.1 (e.2.1, r)
      pure (pop { vm with heap := write vm.heap ra (.tab t') })

/-- The part that `buzzneighbors_map` (422-460) and `buzzneighbors_filter` (570-608) have in common.  `neighbor_filter_each` (538-568) is the function `filterEntry` of
`filter`. -/
def nbrBuild (E : Env) (m : Nat) (body : Nat → Nat → Nat → Entry3 → VM → Res VM) (vm : VM) : Res VM := do
  let k ← lnum vm
  if k ≠ 1 then pure (setErr vm .lnum)
  else do
    let vm ← lload vm 0
    let sc ← peekCell vm 1
    match sc with
    | .tab _ => do
      let vm ← pushName "poses" vm
      let vm ← tget E vm
      let pa ← peekAddr vm 1
      let r ← nbrTable E vm
      if r.1.state ≠ .ready then pure r.1
      else do
        let vm := pushAddr r.1 r.2
        let c ← cellAt vm pa
        match c with
        | .tab _ => do
          let vm ← lload vm 1
          let cc ← peekCell vm 1
          match cc with
          | .clo _ _ _ => do
            let ca ← peekAddr vm 1
            let x := newobj vm.heap (.tab Table.new)
            let vm ← nbrSetPoses E r.2 x.2 { vm with heap := x.1 }
            let vm ← dictForeach (body pa ca x.2) pa m vm
            ret1 (pushAddr vm r.2)
          | _ => pure (setErr vm .type)
        | _ => ret1 (pushAddr vm r.2)
    | _ => pure (setErr vm .type)

/-- `buzzneighbors_map` (422-460). -/
def nbrMap (E : Env) (F : CFuns) (m : Nat) : VM → Res VM := nbrBuild E m fun _ ca ra => nbrMapEntry E F m ca ra

/-- `buzzneighbors_filter` (570-608). -/
def nbrFilter (E : Env) (F : CFuns) (m : Nat) : VM → Res VM := nbrBuild E m fun pa ca ra => filterEntry E F m pa ca ra

/-! ### `kin` and `nonkin` -/

/-- `buzzneighbors_kin` (206-249).  As it takes no arguments, the position in the swarm stack is always 1. -/
def nbrKin (E : Env) (vm : VM) : Res VM := do
  let k ← lnum vm
  if k ≠ 0 then pure (setErr vm .lnum)
  else do
    let sid := Hof.topSwarm vm.swarmstack
    let vm ← lload vm 0
    let sc ← peekCell vm 1
    match sc with
    | .tab _ => do
      let vm ← pushName "poses" vm
      let vm ← tget E vm
      let pa ← peekAddr vm 1
      let r ← nbrTable E vm
      if r.1.state ≠ .ready then pure r.1
      else do
        let c ← cellAt r.1 pa
        match c with
        | .tab d => do
          let t ← (Dict.entries d).foldlM (Hof.kinEntry E.sc r.1.other.swarm.members sid) Table.new
          let x := newobj r.1.heap (.tab t)
          let vm ← nbrSetPoses E r.2 x.2 { r.1 with heap := x.1 }
          ret1 (pushAddr vm r.2)
        | _ => ret1 (pushAddr r.1 r.2)
    | _ => pure (setErr vm .type)

/-- `buzzneighbors_nonkin` (269-314). -/
def nbrNonkin (E : Env) (vm : VM) : Res VM := do
  let k ← lnum vm
  if k ≠ 0 then pure (setErr vm .lnum)
  else do
    let sid := Hof.topSwarm vm.swarmstack
    let r ← nbrTable E vm
    if r.1.state ≠ .ready then pure r.1
    else if sid < 0 then ret1 (pushAddr r.1 r.2)
    else do
      let vm ← nbrPoses E r.1
      let pa ← peekAddr vm 1
      let c ← cellAt vm pa
      match c with
      | .tab d => do
        let t ← (Dict.entries d).foldlM (Hof.nonkinEntry E.sc vm.other.swarm.members sid) Table.new
        let x := newobj vm.heap (.tab t)
        let vm ← nbrSetPoses E r.2 x.2 { vm with heap := x.1 }
        ret1 (pushAddr vm r.2)
      | _ => ret1 (pushAddr vm r.2)

/-- C functions with these among them (buzzneighbors.c 33-40 by way of `buzzneighbors_new`, the first functions registered); `k` bounds how deep they are nested through
callbacks. -/
def nbrFuns (E : Env) (m : Nat) (other : CFuns) : Nat → CFuns
  | 0 => other
  | k + 1 => fun n vm =>
    match n with
    | 0 => nbrGet E vm
    | 1 => nbrFilter E (nbrFuns E m other k) m vm
    | 2 => nbrKin E vm
    | 3 => nbrNonkin E vm
    | 4 => nbrForeach E (nbrFuns E m other k) m vm
    | 5 => nbrMap E (nbrFuns E m other k) m vm
    | 6 => nbrReduce E (nbrFuns E m other k) m vm
    | 7 => nbrCount E vm
    | n => other n vm

end Buzz.VM
