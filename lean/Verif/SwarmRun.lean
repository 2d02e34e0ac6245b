import Verif.StigCreate
import Verif.SwarmExec
import Verif.Period
import Verif.SwarmTale

/-
Swarms on the machine: the C functions of buzzswarm.c that scripts call, the list message of `buzzvm_process_outmsgs` (buzzvm.c 491-501), the swarm messages
that leave (buzzoutmsg.c 379-394, 419-438, 450-490) and arrive (buzzvm.c 433-480).
-/
namespace Buzz.VM

open Buzz.F32 Buzz.Msg Buzz.Heap Buzz.Props Buzz.HeapWire Buzz.OutMsg

/-- The queues of swarm messages. -/
def SwarmPart.q (p : SwarmPart) : Q Unit Unit Unit := ⟨[], p.lists, p.joins, p.leaves, [], [], [], 0⟩

/-- What the functions of `Verif/Swarm.lean` work on (the swarm stack is left out: only `buzzswarm_id` and `buzzswarm_exec` use it). -/
def SwarmPart.st (p : SwarmPart) : Swarm.St Unit Unit Unit := ⟨p.swarms, [], p.q⟩

/-- What they leave. -/
def SwarmPart.put (p : SwarmPart) (s : Swarm.St Unit Unit Unit) : SwarmPart :=
  { p with swarms := s.swarms, lists := s.out.list, joins := s.out.join, leaves := s.out.leave }

/-- Another swarm part. -/
def setSwarm (p : SwarmPart) (vm : VM) : VM := { vm with other := { vm.other with swarm := p } }

/-- The machine after a function of `Verif/Swarm.lean`. -/
def swPut (s : Swarm.St Unit Unit Unit) (vm : VM) : VM := setSwarm (vm.other.swarm.put s) vm

/-- What follows a function of `Verif/Swarm.lean`: the error of an unknown swarm, or the rest of the C function. -/
def swThen (r : Res (Swarm.Out (Swarm.St Unit Unit Unit))) (vm : VM) (k : VM → Res VM) : Res VM := do
  let r ← r
  match r with
  | .error => pure (setErr vm .swarm)
  | .ret s _ => k (swPut s vm)

/-- The methods of a swarm, in the order of their registration (buzzswarm.c 257-262). -/
def swarmMethods : List String := ["others", "join", "leave", "in", "select", "exec"]

/-- `make_table` (buzzswarm.c 253-270).  `buzzvm_function_register` gives a function the same position each time: `base` is that of the first method. -/
def swTable (E : Env) (base id : Nat) (vm : VM) : Res VM := do
  let vm ← swarmMethods.zipIdx.foldlM (fun vm x => stigField E x.1 (fun vm => pushC vm ((base + x.2 : Nat) : Int) false) vm)
    (pushT { vm with nfuns := max vm.nfuns (base + 6) })
  stigField E "id" (fun vm => pushInt vm id) vm

/-- `buzzswarm_create` (buzzswarm.c 290-305). -/
def swCreate (E : Env) (base : Nat) (vm : VM) : Res VM := do
  let n ← lnum vm
  if n ≠ 1 then pure (setErr vm .lnum)
  else do
    let vm ← lload vm 1
    let o ← peek vm 1
    match o with
    | .int v => do
      let vm ← swTable E base (Swarm.u16 v) (swPut (Swarm.create vm.other.swarm.st v).1 vm)
      ret1 vm
    | _ => pure (setErr vm .type)

/-- `buzzswarm_id` (buzzswarm.c 310-337). -/
def swHere (vm : VM) : Res VM := do
  let n ← lnum vm
  if vm.swarmstack.isEmpty then ret1 (pushNil vm)
  else if n > 1 then do
    let vm ← lload vm 1
    let o ← peek vm 1
    match o with
    | .int v => do
      let r ← Swarm.swarmId { vm.other.swarm.st with stack := vm.swarmstack } (some v)
      match r with
      | some i => ret1 (pushInt vm i)
      | none => ret1 (pushNil vm)
    | _ => pure (setErr vm .type)
  else do
    let r ← Swarm.swarmId { vm.other.swarm.st with stack := vm.swarmstack } none
    match r with
    | some i => ret1 (pushInt vm i)
    | none => ret1 (pushNil vm)

/-- `buzzswarm_others` (buzzswarm.c 342-372). -/
def swOthers (E : Env) (base : Nat) (vm : VM) : Res VM := do
  let n ← lnum vm
  if n ≠ 1 then pure (setErr vm .lnum)
  else do
    let r ← stigId E vm
    if (FMap.get r.1.other.swarm.swarms r.2).isNone then pure (setErr r.1 .swarm)
    else do
      let vm ← lload r.1 1
      let o ← peek vm 1
      match o with
      | .int v => swThen (Swarm.others vm.other.swarm.st r.2 v) vm fun vm => do
        let vm ← swTable E base (Swarm.u16 v) vm
        ret1 vm
      | _ => pure (setErr vm .type)

/-- `buzzswarm_join` (buzzswarm.c 377-398). -/
def swJoin (E : Env) (vm : VM) : Res VM := do
  let n ← lnum vm
  if n ≠ 0 then pure (setErr vm .lnum)
  else do
    let r ← stigId E vm
    swThen (Swarm.join r.1.other.swarm.st r.2) r.1 ret0

/-- `buzzswarm_leave` (buzzswarm.c 403-424). -/
def swLeave (E : Env) (vm : VM) : Res VM := do
  let n ← lnum vm
  if n ≠ 0 then pure (setErr vm .lnum)
  else do
    let r ← stigId E vm
    swThen (Swarm.leave r.1.other.swarm.st r.2) r.1 ret0

/-- `buzzswarm_in` (buzzswarm.c 429-445). -/
def swIn (E : Env) (vm : VM) : Res VM := do
  let n ← lnum vm
  if n ≠ 0 then pure (setErr vm .lnum)
  else do
    let r ← stigId E vm
    match FMap.get r.1.other.swarm.swarms r.2 with
    | none => pure (setErr r.1 .swarm)
    | some x => ret1 (pushInt r.1 (x : Nat))

/-- `buzzswarm_select` (buzzswarm.c 450-476). -/
def swSelect (E : Env) (vm : VM) : Res VM := do
  let n ← lnum vm
  if n ≠ 1 then pure (setErr vm .lnum)
  else do
    let r ← stigId E vm
    let vm ← lload r.1 1
    let o ← peek vm 1
    match o with
    | .int c => swThen (Swarm.select vm.other.swarm.st r.2 c) vm ret0
    | _ => pure (setErr vm .type)

/-- `buzzswarm_check` (buzzswarm.c 523-549).  `none` stands for -1.  If the top of the stack is no table the macro `buzzvm_type_assert` (buzzvm.h 755) makes it return
the machine's state, which is 3 and counts as a member (buzzvm.h 26-32). -/
def swCheck (E : Env) (vm : VM) : Res (VM × Option Bool) := do
  let c ← peekCell vm 1
  match c with
  | .tab _ => do
    let vm ← pushName "id" vm
    let vm ← tget E vm
    let o ← peek vm 1
    match o with
    | .int v => pure (vm, some (Swarm.check vm.other.swarm.st (Swarm.u16 v)))
    | _ => pure (setErr vm .swarm, none)
  | _ => pure (setErr vm .type, some true)

/-- `buzzswarm_set_operation_boilerplate` (buzzswarm.c 554-581).  The message is queued after the table is made. -/
def swSetOp (E : Env) (base : Nat) (op : Swarm.SetOp) (vm : VM) : Res VM := do
  let n ← lnum vm
  if n ≠ 3 then pure (setErr vm .lnum)
  else do
    let vm ← lload vm 1
    let o ← peek vm 1
    match o with
    | .int v => do
      let vm ← lload vm 2
      let a ← swCheck E vm
      match a.2 with
      | none => pure a.1
      | some s1 => do
        let vm ← lload a.1 3
        let b ← swCheck E vm
        match b.2 with
        | none => pure b.1
        | some s2 => do
          let x := op.cond s1 s2
          let s ← Swarm.store b.1.other.swarm.st (Swarm.u16 v) (if x then 1 else 0) (if x then some .join else none)
          let vm ← swTable E base (Swarm.u16 v) (swPut s b.1)
          ret1 vm
    | _ => pure (setErr vm .type)

/-- The swarm functions among the C functions of a machine (`Install.library`); the methods follow from `base` on.  The steps of `exec` are bounded by `fuel` at each of
`depth` levels. -/
def swFuns (E : Env) (base fuel : Nat) (other : CFuns) : Nat → CFuns
  | depth, n, vm =>
    if n = 28 then swCreate E base vm
    else if n = 29 then swSetOp E base .union vm
    else if n = 30 then swSetOp E base .intersection vm
    else if n = 31 then swSetOp E base .difference vm
    else if n = 32 then swHere vm
    else if n = base then swOthers E base vm
    else if n = base + 1 then swJoin E vm
    else if n = base + 2 then swLeave E vm
    else if n = base + 3 then swIn E vm
    else if n = base + 4 then swSelect E vm
    else if n = base + 5 then
      match depth with
      | 0 => .hang
      | d + 1 => swarmExec E (swFuns E base fuel other d) fuel (FMap.get vm.other.swarm.swarms) vm
    else other n vm

/-- `buzzvm_process_outmsgs` (buzzvm.c 491-501). -/
def swTick (vm : VM) : VM :=
  let r := Period.processOut vm.other.swarm.count vm.other.swarm.st
  setSwarm { vm.other.swarm.put r.2 with count := r.1 } vm

/-- The first message of the output queue, if it is about swarms (`buzzoutmsg_queue_first`, buzzoutmsg.c 365-440). -/
def swFirst (o : Other) : Option SwMsg :=
  match o.bcasts, o.swarm.lists, o.puts, o.queries, o.swarm.joins, o.swarm.leaves with
  | [], ids :: _, _, _, _, _ => some (.list ids)
  | [], [], [], [], id :: _, _ => some (.join id)
  | [], [], [], [], [], id :: _ => some (.leave id)
  | _, _, _, _, _, _ => none

/-- Its payload. -/
def SwMsg.bytes : SwMsg → Bytes
  | .list ids => Swarm.payList ids
  | .join id => Swarm.paySwarm .join id
  | .leave id => Swarm.paySwarm .leave id

/-- Its removal (`buzzoutmsg_queue_next`, buzzoutmsg.c 445-490). -/
def swDrop (m : SwMsg) (p : SwarmPart) : SwarmPart :=
  match m with
  | .list _ => { p with lists := p.lists.tail }
  | .join _ => { p with joins := p.joins.tail }
  | .leave _ => { p with leaves := p.leaves.tail }

/-- A swarm message from robot `rid` arrives (buzzvm.c 433-480). -/
def onSwarm (rid : Nat) (buf : Bytes) (vm : VM) : Res VM := do
  let m ← Swarm.handle vm.other.swarm.members rid buf
  pure (setSwarm { vm.other.swarm with members := m } vm)

/-- The end of `buzzvm_process_inmsgs` (buzzvm.c 484-485). -/
def swAge (vm : VM) : VM := setSwarm { vm.other.swarm with members := Swarm.update vm.other.swarm.members } vm

end Buzz.VM
