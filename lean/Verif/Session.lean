import Verif.Install
import Verif.SimStep

/-
What a robot does with a program: the functions of the controller are registered, the script is executed, its function `init` is called once,
and from then on `step` is called in every round, after the host has written the readings of the sensors into variables
(src/buzz/argos/buzz_controller.cpp).
-/
namespace Buzz.VM

open Buzz.Msg Buzz.Heap

/-- `buzzvm_closure_call` (buzzvm.c 1006-1019) up to the loop. -/
def entering (F : CFuns) (argc : Nat) (vm : VM) : Res VM := do
  let u ← insertSelf vm argc
  call F false (pushInt u (intOfU32 argc))

/-- A function of the script is called and its value removed from the stack (buzz_controller.cpp 548-561 and 622-632).  If the machine is not ready
afterwards the controller prints its state and leaves it as it is. -/
def callPop (E : Env) (F : CFuns) (m : Nat) (x : Bytes) (vm : VM) : Res VM := do
  let vm ← functionCall E F m x 0 vm
  if vm.state = .ready then pure (pop vm) else pure vm

/-- `CBuzzController::ControlStep` (534-569); `cs` is what `UpdateSensors` does.  Simplification: no messages arrive (`ProcessInMsgs`) and none are
collected (`ProcessOutMsgs`). -/
def controlStep (E : Env) (F : CFuns) (m robot : Nat) (step : Bytes) (cs : List Cmd) (vm : VM) : Res VM :=
  if vm.state = .ready then do
    let x ← cmds E robot cs (vm, 0)
    callPop E F m step x.1
  else pure vm

/-- One round after the other. -/
def controlSteps (E : Env) (F : CFuns) (m robot : Nat) (step : Bytes) : List (List Cmd) → VM → Res VM
  | [], vm => .ok vm
  | cs :: rs, vm => do
    let vm ← controlStep E F m robot step cs vm
    controlSteps E F m robot step rs vm

/-- `CBuzzController::SetBytecode` (582-633) after `buzzvm_set_bcode`, and the rounds `rs`.  `cs` is what `RegisterFunctions` and `UpdateSensors` do;
`m` bounds the steps of the script and of each call. -/
def control (E : Env) (F : CFuns) (m robot : Nat) (init step : Bytes) (cs : List Cmd) (rs : List (List Cmd)) (vm : VM) : Res VM := do
  let x ← cmds E robot cs (vm, 0)
  let vm ← run E F m x.1
  if vm.state ≠ .done then pure vm
  else do
    let vm ← callPop E F m init vm
    controlSteps E F m robot step rs vm

/-! ### Too many strings -/

/-- The machine has more than 65533 different strings. -/
def Crowded (vm : VM) : Prop := 65533 < vm.strings.id2str.length

/-- `k` steps of the loop of `buzzvm_closure_call`, which ends when no more than `base` stacks are below the current one. -/
def stepsAbove (E : Env) (F : CFuns) (base : Nat) : Nat → VM → Res VM
  | 0, vm => .ok vm
  | k + 1, vm => if base < vm.rest.length then step E F vm >>= stepsAbove E F base k else .ub

/-- After some of the commands there is no room for the strings of the next one: with them the machine could have more than 65534. -/
def CmdsCrowd (E : Env) (robot : Nat) (cs : List Cmd) (vm : VM) : Prop :=
  ∃ pre c x, pre ++ [c] <+: cs ∧ cmds E robot pre (vm, 0) = .ok x ∧ 65534 < x.1.strings.id2str.length + c.names

/-- The machine is crowded when the function `x` is called, or while it runs. -/
def CallCrowd (E : Env) (F : CFuns) (x : Bytes) (vm : VM) : Prop :=
  Crowded vm ∨ ∃ r v u k w, Strman.register vm.strings x false = .ok r ∧ gload (pushS { vm with strings := r.1, state := .ready } r.2) = .ok v ∧ entering F 0 v = .ok u ∧
    stepsAbove E F v.rest.length k u = .ok w ∧ Crowded w

/-- The machine is crowded at some point of the rounds. -/
def StepsCrowd (E : Env) (F : CFuns) (robot : Nat) (step : Bytes) : List (List Cmd) → VM → Prop
  | [], _ => False
  | cs :: rs, vm => vm.state = .ready ∧ (CmdsCrowd E robot cs vm ∨ (∃ x, cmds E robot cs (vm, 0) = .ok x ∧ CallCrowd E F step x.1) ∨
      ∃ m vm', controlStep E F m robot step cs vm = .ok vm' ∧ StepsCrowd E F robot step rs vm')

/-- The machine is crowded at some point. -/
def ControlCrowd (E : Env) (F : CFuns) (robot : Nat) (init step : Bytes) (cs : List Cmd) (rs : List (List Cmd)) (vm : VM) : Prop :=
  CmdsCrowd E robot cs vm ∨ ∃ x, cmds E robot cs (vm, 0) = .ok x ∧
    ((∃ k w, Sim.stepN E F k x.1 = .ok w ∧ Crowded w) ∨ ∃ m v, run E F m x.1 = .ok v ∧ v.state = .done ∧
      (CallCrowd E F init v ∨ ∃ m vm', callPop E F m init v = .ok vm' ∧ StepsCrowd E F robot step rs vm'))

end Buzz.VM

namespace Buzz.Lang

open Buzz.Msg Buzz.VM

/-- The function of the script in the variable `x` is called without arguments.  A function of the host has no meaning here. -/
def callGlobal (H : Host) (n : Nat) (x : Bytes) : Ev Obj := fun s =>
  match globalVal x s with
  | .clo l =>
    match s.store[l]? with
    | some (.fn _ _ _) => apply H.lib (exec H n) (.clo l) [] s
    | _ => .odd
  | _ => .err .type

/-- What commands of the host do that leave nothing on the stack; `nf` functions are registered before them, the result is how many afterwards, no more
than a 16-bit number can count. -/
def hostRegs (robot : Nat) (cs : List Cmd) (nf : Nat) : Ev Nat := fun s =>
  match regs (.int (robot : Int)) cs ⟨none, [], nf, none⟩ s with
  | .ok r s' => if r.ws.isEmpty ∧ r.nf ≤ 65535 then .ok r.nf s' else .odd
  | _ => .odd

/-- A round: the host writes variables, then `step` is called. -/
def round (H : Host) (n robot nf : Nat) (step : Bytes) (cs : List Cmd) : Ev Unit := do
  let k ← hostRegs robot cs nf
  if k = nf then do
    let _ ← callGlobal H n step
    pure ()
  else odd

/-- One round after the other. -/
def rounds (H : Host) (n robot nf : Nat) (step : Bytes) : List (List Cmd) → Ev Unit
  | [] => pure ()
  | cs :: rs => do
    round H n robot nf step cs
    rounds H n robot nf step rs

/-- What a robot does with the program `b`: the script, `init`, and `step` in every round. -/
def life (H : Host) (n robot : Nat) (init step : Bytes) (cs : List Cmd) (rs : List (List Cmd)) (b : Ast) : Ev Unit := do
  let nf ← hostRegs robot cs 65
  let _ ← exec H n b
  let _ ← callGlobal H n init
  rounds H n robot nf step rs

end Buzz.Lang
