import Verif.Props.StigManagers

/-
Scripts with conflict managers, compiled and run by the model, and a message that is in conflict with an entry (C80).
-/
namespace Buzz.Props

open Buzz.F32 Buzz.Msg Buzz.Heap Buzz.Value Buzz.VM Buzz.HeapWire

/-- A put message of robot 3: stigmergy 1, key 1, value 6, timestamp 1. -/
def putMsg : Bytes := [2, 0, 1, 1, 0, 0, 0, 1, 1, 0, 0, 0, 6, 0, 1, 0, 3]

/-- The entry of the stigmergy `i` under the key `k`: value, timestamp and robot. -/
def entryAt (vm : VM) (i : Nat) (k : Obj) : Option (Option Obj × Nat × Nat) :=
  match FMap.get vm.other.vstigs i with
  | none => none
  | some st => match Table.get someEnv.sc st.data k with
    | .ok (some e) => some (match deref vm.heap e.data with | .ok m => some (objOf e.data m.cell) | _ => none, e.ts, e.robot)
    | _ => none

/-- What there is after the message: state, error, the value of the variable `x`, the entry under the key 1, the number of messages waiting to be sent, and the number of objects left on the stack. -/
structure AfterMsg where
  state : VM.State
  error : VM.Err
  x : Option Obj
  entry : Option (Option Obj × Nat × Nat)
  waiting : Nat
  left : Nat
  deriving DecidableEq

/-- The script is run on robot 7, its messages are sent, and the message arrives. -/
def playConflict (code : Bytes) : Res AfterMsg := do
  let vm ← VM.load someEnv code VM.new
  let vm ← boot someEnv stigLib 200 vm
  let vm ← cmds someEnv 7 regStig ({ vm with nfuns := 27 }, 0)
  let vm ← VM.run someEnv stigLib 600 vm.1
  let vm := { vm with state := .ready, other := { vm.other with puts := [] } }
  let n := vm.stack.length
  let vm ← onStig someEnv 7 (stigMgr someEnv stigLib 300) (stigLost someEnv stigLib 300) .put putMsg vm
  .ok ⟨vm.state, vm.error, globalAt vm [120], entryAt vm 1 (.int 1), vm.other.puts.length, vm.stack.length - n⟩

/-- A text is compiled, and this is what there is after the message. -/
def AfterConflict (text : String) (r : Res AfterMsg) : Prop := ∃ code, codeOf text = .ok (some code) ∧ playConflict code = r

def cmCode1 : Bytes := [5, 0, 115, 0, 115, 116, 105, 103, 109, 101, 114, 103, 121, 0, 99, 114, 101, 97, 116, 101, 0, 120, 0, 112, 117, 116, 0, 0, 37, 0, 0, 0, 0, 37, 1, 0, 0, 0, 28, 3, 37, 2, 0, 0, 0, 32, 36, 1, 0, 0, 0, 36, 1, 0, 0, 0, 33, 29, 37, 3, 0, 0, 0, 36, 0, 0, 0, 0, 29, 37, 0, 0, 0, 0, 28, 3, 37, 4, 0, 0, 0, 32, 36, 1, 0, 0, 0, 36, 5, 0, 0, 0, 36, 2, 0, 0, 0, 33, 4, 1]

theorem cmCode1_of : codeOf "s=stigmergy.create(1)\nx=0\ns.put(1,5)" = .ok (some cmCode1) := codeS_eq (by decide +kernel)

theorem cmCode1_ends : playConflict cmCode1 = .ok ⟨.ready, .none, some (.int 0), some (some (.int 5), 1, 7), 1, 0⟩ := by decide +kernel

def cmCode2 : Bytes := [8, 0, 115, 0, 115, 116, 105, 103, 109, 101, 114, 103, 121, 0, 99, 114, 101, 97, 116, 101, 0, 120, 0, 112, 117, 116, 0, 111, 110, 99, 111, 110, 102, 108, 105, 99, 116, 0, 100, 97, 116, 97, 0, 114, 111, 98, 111, 116, 0, 0, 37, 0, 0, 0, 0, 37, 1, 0, 0, 0, 28, 3, 37, 2, 0, 0, 0, 32, 36, 1, 0, 0, 0, 36, 1, 0, 0, 0, 33, 29, 37, 3, 0, 0, 0, 36, 0, 0, 0, 0, 29, 37, 0, 0, 0, 0, 28, 3, 37, 4, 0, 0, 0, 32, 36, 1, 0, 0, 0, 36, 5, 0, 0, 0, 36, 2, 0, 0, 0, 33, 4, 37, 0, 0, 0, 0, 28, 3, 37, 5, 0, 0, 0, 32, 40, 147, 0, 0, 0, 36, 1, 0, 0, 0, 33, 4, 1, 37, 3, 0, 0, 0, 41, 1, 0, 0, 0, 36, 16, 39, 0, 0, 9, 41, 2, 0, 0, 0, 37, 6, 0, 0, 0, 32, 36, 232, 3, 0, 0, 9, 7, 41, 2, 0, 0, 0, 37, 7, 0, 0, 0, 32, 36, 100, 0, 0, 0, 9, 7, 41, 3, 0, 0, 0, 37, 6, 0, 0, 0, 32, 36, 10, 0, 0, 0, 9, 7, 41, 3, 0, 0, 0, 37, 7, 0, 0, 0, 32, 7, 29, 41, 2, 0, 0, 0, 6, 5]

theorem cmCode2_of : codeOf "s=stigmergy.create(1)\nx=0\ns.put(1,5)\ns.onconflict(function(k,l,r){x=k*10000+l.data*1000+l.robot*100+r.data*10+r.robot\nreturn l})" = .ok (some cmCode2) := codeS_eq (by decide +kernel)

theorem cmCode2_ends : playConflict cmCode2 = .ok ⟨.ready, .none, some (.int 15763), some (some (.int 5), 1, 7), 1, 0⟩ := by decide +kernel

def cmCode3 : Bytes := [9, 0, 115, 0, 115, 116, 105, 103, 109, 101, 114, 103, 121, 0, 99, 114, 101, 97, 116, 101, 0, 120, 0, 112, 117, 116, 0, 111, 110, 99, 111, 110, 102, 108, 105, 99, 116, 0, 111, 110, 99, 111, 110, 102, 108, 105, 99, 116, 108, 111, 115, 116, 0, 100, 97, 116, 97, 0, 114, 111, 98, 111, 116, 0, 0, 37, 0, 0, 0, 0, 37, 1, 0, 0, 0, 28, 3, 37, 2, 0, 0, 0, 32, 36, 1, 0, 0, 0, 36, 1, 0, 0, 0, 33, 29, 37, 3, 0, 0, 0, 36, 0, 0, 0, 0, 29, 37, 0, 0, 0, 0, 28, 3, 37, 4, 0, 0, 0, 32, 36, 1, 0, 0, 0, 36, 5, 0, 0, 0, 36, 2, 0, 0, 0, 33, 4, 37, 0, 0, 0, 0, 28, 3, 37, 5, 0, 0, 0, 32, 40, 187, 0, 0, 0, 36, 1, 0, 0, 0, 33, 4, 37, 0, 0, 0, 0, 28, 3, 37, 6, 0, 0, 0, 32, 40, 194, 0, 0, 0, 36, 1, 0, 0, 0, 33, 4, 1, 41, 3, 0, 0, 0, 6, 5, 37, 3, 0, 0, 0, 41, 1, 0, 0, 0, 36, 100, 0, 0, 0, 9, 41, 2, 0, 0, 0, 37, 7, 0, 0, 0, 32, 36, 10, 0, 0, 0, 9, 7, 41, 2, 0, 0, 0, 37, 8, 0, 0, 0, 32, 7, 29, 5]

theorem cmCode3_of : codeOf "s=stigmergy.create(1)\nx=0\ns.put(1,5)\ns.onconflict(function(k,l,r){return r})\ns.onconflictlost(function(k,l){x=k*100+l.data*10+l.robot})" = .ok (some cmCode3) := codeS_eq (by decide +kernel)

theorem cmCode3_ends : playConflict cmCode3 = .ok ⟨.ready, .none, some (.int 157), some (some (.int 6), 1, 3), 1, 1⟩ := by decide +kernel

def cmCode4 : Bytes := [6, 0, 115, 0, 115, 116, 105, 103, 109, 101, 114, 103, 121, 0, 99, 114, 101, 97, 116, 101, 0, 120, 0, 112, 117, 116, 0, 111, 110, 99, 111, 110, 102, 108, 105, 99, 116, 0, 0, 37, 0, 0, 0, 0, 37, 1, 0, 0, 0, 28, 3, 37, 2, 0, 0, 0, 32, 36, 1, 0, 0, 0, 36, 1, 0, 0, 0, 33, 29, 37, 3, 0, 0, 0, 36, 0, 0, 0, 0, 29, 37, 0, 0, 0, 0, 28, 3, 37, 4, 0, 0, 0, 32, 36, 1, 0, 0, 0, 36, 5, 0, 0, 0, 36, 2, 0, 0, 0, 33, 4, 37, 0, 0, 0, 0, 28, 3, 37, 5, 0, 0, 0, 32, 40, 136, 0, 0, 0, 36, 1, 0, 0, 0, 33, 4, 1, 36, 4, 0, 0, 0, 6, 5]

theorem cmCode4_of : codeOf "s=stigmergy.create(1)\nx=0\ns.put(1,5)\ns.onconflict(function(k,l,r){return 4})" = .ok (some cmCode4) := codeS_eq (by decide +kernel)

theorem cmCode4_ends : playConflict cmCode4 = .ok ⟨.ready, .none, some (.int 0), some (some (.int 5), 1, 7), 0, 1⟩ := by decide +kernel

def cmCode5 : Bytes := [7, 0, 115, 0, 115, 116, 105, 103, 109, 101, 114, 103, 121, 0, 99, 114, 101, 97, 116, 101, 0, 120, 0, 112, 117, 116, 0, 111, 110, 99, 111, 110, 102, 108, 105, 99, 116, 0, 100, 97, 116, 97, 0, 0, 37, 0, 0, 0, 0, 37, 1, 0, 0, 0, 28, 3, 37, 2, 0, 0, 0, 32, 36, 1, 0, 0, 0, 36, 1, 0, 0, 0, 33, 29, 37, 3, 0, 0, 0, 36, 0, 0, 0, 0, 29, 37, 0, 0, 0, 0, 28, 3, 37, 4, 0, 0, 0, 32, 36, 1, 0, 0, 0, 36, 5, 0, 0, 0, 36, 2, 0, 0, 0, 33, 4, 37, 0, 0, 0, 0, 28, 3, 37, 5, 0, 0, 0, 32, 40, 141, 0, 0, 0, 36, 1, 0, 0, 0, 33, 4, 1, 30, 3, 37, 6, 0, 0, 0, 36, 8, 0, 0, 0, 31, 6, 5]

theorem cmCode5_of : codeOf "s=stigmergy.create(1)\nx=0\ns.put(1,5)\ns.onconflict(function(k,l,r){return {.data=8}})" = .ok (some cmCode5) := codeS_eq (by decide +kernel)

theorem cmCode5_ends : playConflict cmCode5 = .ok ⟨.ready, .none, some (.int 0), some (some (.int 5), 1, 7), 0, 1⟩ := by decide +kernel

def cmCode6 : Bytes := [7, 0, 115, 0, 115, 116, 105, 103, 109, 101, 114, 103, 121, 0, 99, 114, 101, 97, 116, 101, 0, 120, 0, 112, 117, 116, 0, 111, 110, 99, 111, 110, 102, 108, 105, 99, 116, 0, 114, 111, 98, 111, 116, 0, 0, 37, 0, 0, 0, 0, 37, 1, 0, 0, 0, 28, 3, 37, 2, 0, 0, 0, 32, 36, 1, 0, 0, 0, 36, 1, 0, 0, 0, 33, 29, 37, 3, 0, 0, 0, 36, 0, 0, 0, 0, 29, 37, 0, 0, 0, 0, 28, 3, 37, 4, 0, 0, 0, 32, 36, 1, 0, 0, 0, 36, 5, 0, 0, 0, 36, 2, 0, 0, 0, 33, 4, 37, 0, 0, 0, 0, 28, 3, 37, 5, 0, 0, 0, 32, 40, 142, 0, 0, 0, 36, 1, 0, 0, 0, 33, 4, 1, 30, 3, 37, 6, 0, 0, 0, 36, 9, 0, 0, 0, 31, 6, 5]

theorem cmCode6_of : codeOf "s=stigmergy.create(1)\nx=0\ns.put(1,5)\ns.onconflict(function(k,l,r){return {.robot=9}})" = .ok (some cmCode6) := codeS_eq (by decide +kernel)

theorem cmCode6_ends : playConflict cmCode6 = .ok ⟨.ready, .none, some (.int 0), some (some .nil, 1, 9), 1, 0⟩ := by decide +kernel

def cmCode7 : Bytes := [6, 0, 115, 0, 115, 116, 105, 103, 109, 101, 114, 103, 121, 0, 99, 114, 101, 97, 116, 101, 0, 120, 0, 112, 117, 116, 0, 111, 110, 99, 111, 110, 102, 108, 105, 99, 116, 0, 0, 37, 0, 0, 0, 0, 37, 1, 0, 0, 0, 28, 3, 37, 2, 0, 0, 0, 32, 36, 1, 0, 0, 0, 36, 1, 0, 0, 0, 33, 29, 37, 3, 0, 0, 0, 36, 0, 0, 0, 0, 29, 37, 0, 0, 0, 0, 28, 3, 37, 4, 0, 0, 0, 32, 36, 1, 0, 0, 0, 36, 5, 0, 0, 0, 36, 2, 0, 0, 0, 33, 4, 37, 0, 0, 0, 0, 28, 3, 37, 5, 0, 0, 0, 32, 40, 136, 0, 0, 0, 36, 1, 0, 0, 0, 33, 4, 1, 37, 0, 0, 0, 0, 28, 3, 37, 4, 0, 0, 0, 32, 41, 1, 0, 0, 0, 2, 36, 2, 0, 0, 0, 33, 4, 41, 3, 0, 0, 0, 6, 5]

theorem cmCode7_of : codeOf "s=stigmergy.create(1)\nx=0\ns.put(1,5)\ns.onconflict(function(k,l,r){s.put(k,nil)\nreturn r})" = .ok (some cmCode7) := codeS_eq (by decide +kernel)

theorem cmCode7_ends : playConflict cmCode7 = .ub := by decide +kernel

def cmCode8 : Bytes := [7, 0, 115, 0, 115, 116, 105, 103, 109, 101, 114, 103, 121, 0, 99, 114, 101, 97, 116, 101, 0, 120, 0, 112, 117, 116, 0, 111, 110, 99, 111, 110, 102, 108, 105, 99, 116, 0, 108, 111, 103, 0, 0, 37, 0, 0, 0, 0, 37, 1, 0, 0, 0, 28, 3, 37, 2, 0, 0, 0, 32, 36, 1, 0, 0, 0, 36, 1, 0, 0, 0, 33, 29, 37, 3, 0, 0, 0, 36, 0, 0, 0, 0, 29, 37, 0, 0, 0, 0, 28, 3, 37, 4, 0, 0, 0, 32, 36, 1, 0, 0, 0, 36, 5, 0, 0, 0, 36, 2, 0, 0, 0, 33, 4, 37, 0, 0, 0, 0, 28, 3, 37, 5, 0, 0, 0, 32, 40, 140, 0, 0, 0, 36, 1, 0, 0, 0, 33, 4, 1, 2, 37, 6, 0, 0, 0, 28, 41, 1, 0, 0, 0, 36, 1, 0, 0, 0, 33, 4, 5]

theorem cmCode8_of : codeOf "s=stigmergy.create(1)\nx=0\ns.put(1,5)\ns.onconflict(function(k,l,r){log(k)})" = .ok (some cmCode8) := codeS_eq (by decide +kernel)

theorem cmCode8_ends : playConflict cmCode8 = .ok ⟨.error, .type, some (.int 0), some (some (.int 5), 1, 7), 0, 3⟩ := by decide +kernel

def cmCode9 : Bytes := [6, 0, 115, 0, 115, 116, 105, 103, 109, 101, 114, 103, 121, 0, 99, 114, 101, 97, 116, 101, 0, 120, 0, 112, 117, 116, 0, 111, 110, 99, 111, 110, 102, 108, 105, 99, 116, 0, 0, 37, 0, 0, 0, 0, 37, 1, 0, 0, 0, 28, 3, 37, 2, 0, 0, 0, 32, 36, 1, 0, 0, 0, 36, 1, 0, 0, 0, 33, 29, 37, 3, 0, 0, 0, 36, 0, 0, 0, 0, 29, 37, 0, 0, 0, 0, 28, 3, 37, 4, 0, 0, 0, 32, 36, 1, 0, 0, 0, 36, 5, 0, 0, 0, 36, 2, 0, 0, 0, 33, 4, 37, 0, 0, 0, 0, 28, 3, 37, 5, 0, 0, 0, 32, 40, 136, 0, 0, 0, 36, 1, 0, 0, 0, 33, 4, 1, 37, 0, 0, 0, 0, 28, 3, 37, 4, 0, 0, 0, 32, 41, 1, 0, 0, 0, 36, 8, 0, 0, 0, 36, 2, 0, 0, 0, 33, 4, 41, 3, 0, 0, 0, 6, 5]

theorem cmCode9_of : codeOf "s=stigmergy.create(1)\nx=0\ns.put(1,5)\ns.onconflict(function(k,l,r){s.put(k,8)\nreturn r})" = .ok (some cmCode9) := codeS_eq (by decide +kernel)

theorem cmCode9_ends : playConflict cmCode9 = .ok ⟨.ready, .none, some (.int 0), some (some (.int 6), 2, 3), 1, 0⟩ := by decide +kernel

/-- Without a manager the higher robot number wins.  A manager gets key, local and received entry, and what it returns is stored and sent; a table without `data` gives nil. -/
theorem C80_runs : AfterConflict "s=stigmergy.create(1)\nx=0\ns.put(1,5)" (.ok ⟨.ready, .none, some (.int 0), some (some (.int 5), 1, 7), 1, 0⟩) ∧
    AfterConflict "s=stigmergy.create(1)\nx=0\ns.put(1,5)\ns.onconflict(function(k,l,r){x=k*10000+l.data*1000+l.robot*100+r.data*10+r.robot\nreturn l})" (.ok ⟨.ready, .none, some (.int 15763), some (some (.int 5), 1, 7), 1, 0⟩) ∧
    AfterConflict "s=stigmergy.create(1)\nx=0\ns.put(1,5)\ns.onconflict(function(k,l,r){return {.robot=9}})" (.ok ⟨.ready, .none, some (.int 0), some (some .nil, 1, 9), 1, 0⟩) :=
  ⟨⟨_, cmCode1_of, cmCode1_ends⟩, ⟨_, cmCode2_of, cmCode2_ends⟩, ⟨_, cmCode6_of, cmCode6_ends⟩⟩

/-- **A defect**: one object stays on the stack for each lost conflict, and for each answer of a manager that is no entry. -/
theorem C80_stack : AfterConflict "s=stigmergy.create(1)\nx=0\ns.put(1,5)\ns.onconflict(function(k,l,r){return r})\ns.onconflictlost(function(k,l){x=k*100+l.data*10+l.robot})" (.ok ⟨.ready, .none, some (.int 157), some (some (.int 6), 1, 3), 1, 1⟩) ∧
    AfterConflict "s=stigmergy.create(1)\nx=0\ns.put(1,5)\ns.onconflict(function(k,l,r){return 4})" (.ok ⟨.ready, .none, some (.int 0), some (some (.int 5), 1, 7), 0, 1⟩) ∧
    AfterConflict "s=stigmergy.create(1)\nx=0\ns.put(1,5)\ns.onconflict(function(k,l,r){return {.data=8}})" (.ok ⟨.ready, .none, some (.int 0), some (some (.int 5), 1, 7), 0, 1⟩) :=
  ⟨⟨_, cmCode3_of, cmCode3_ends⟩, ⟨_, cmCode4_of, cmCode4_ends⟩, ⟨_, cmCode5_of, cmCode5_ends⟩⟩

/-- An error in the manager stops the script, and nothing is stored. -/
theorem C80_error : AfterConflict "s=stigmergy.create(1)\nx=0\ns.put(1,5)\ns.onconflict(function(k,l,r){log(k)})" (.ok ⟨.error, .type, some (.int 0), some (some (.int 5), 1, 7), 0, 3⟩) :=
  ⟨_, cmCode8_of, cmCode8_ends⟩

/-- A manager can write the entry itself: its answer is then stored with the timestamp of that write.  **A defect**: it must not remove the entry, the local entry is used after the call. -/
theorem C80_changing : AfterConflict "s=stigmergy.create(1)\nx=0\ns.put(1,5)\ns.onconflict(function(k,l,r){s.put(k,8)\nreturn r})" (.ok ⟨.ready, .none, some (.int 0), some (some (.int 6), 2, 3), 1, 0⟩) ∧
    AfterConflict "s=stigmergy.create(1)\nx=0\ns.put(1,5)\ns.onconflict(function(k,l,r){s.put(k,nil)\nreturn r})" (.ub) :=
  ⟨⟨_, cmCode9_of, cmCode9_ends⟩, ⟨_, cmCode7_of, cmCode7_ends⟩⟩

/-- The hypotheses of `C80_manager` and `C80_lost` hold of a machine, with the library as C functions. -/
example : ∃ (F : CFuns) (vm : VM) (ca : Nat) (l v : VElem) (dl dv : Cell), FOk F ∧ FHome F ∧ FApart F ∧ FFirm F ∧ VInv vm ∧ vm.state = .ready ∧ Holds vm.heap ca (.clo true 2 [0]) ∧ Live vm.heap v.key ∧
    Live vm.heap l.key ∧ Holds vm.heap l.data dl ∧ Holds vm.heap v.data dv ∧ l.ts < 65536 ∧ l.robot < 65536 ∧ v.ts < 65536 ∧ v.robot < 65536 ∧ vm.strings.id2str.length + 6 ≤ 65534 ∧ l.ts = v.ts ∧
    l.robot ≠ v.robot := by
  have i1 := VM.new_inv.push (c := .atom (.int 1)) (by show I32 1; unfold I32; decide)
  have i2 := i1.push (c := .clo true 2 [0]) ⟨by unfold I32; decide, by
    intro a ha
    simp only [List.mem_singleton] at ha
    subst ha
    exact ⟨.atom (.int 1), ⟨_, rfl, rfl⟩⟩⟩
  refine ⟨_, { VM.push (VM.push VM.new (.atom (.int 1))) (.clo true 2 [0]) with state := .ready }, 1, ⟨0, 0, 1, 7⟩, ⟨0, 0, 1, 3⟩, .atom (.int 1), .atom (.int 1), std_all (E := someEnv).1, std_all.2.1, std_all.2.2.1,
    std_all.2.2.2, { i2 with depth := fun _ => i2.depth (by simp [VM.push, VM.new]) }, rfl, ⟨_, rfl, rfl⟩, ⟨_, _, rfl, rfl⟩, ⟨_, _, rfl, rfl⟩, ⟨_, rfl, rfl⟩, ⟨_, rfl, rfl⟩, by decide, by decide, by decide, by decide,
    by decide, rfl, by decide⟩

/-- The hypotheses of `C80_stored` and `C80_lost_called` hold of a machine: a manager that answers with the received entry. -/
example : ∃ (mgr : Nat → VElem → VElem → VM → Res (VM × Option VElem)) (vm x : VM) (st st' : Stig) (l v e l' : VElem) (k : Obj) (S : Obj → Prop) (p : Heap × Nat), st.onconflict = some 1 ∧
    mgr 1 l v vm = .ok (x, some e) ∧ FMap.get x.other.vstigs 1 = some st' ∧ Table.Homog someEnv.sc S ∧ Dict.WF Table.hashN Table.eqd st'.data ∧ Table.Keys S st'.data ∧ S k ∧
    Table.get someEnv.sc st'.data k = .ok (some l') ∧ e.robot ≠ 7 ∧ l'.robot = 7 ∧ clone someEnv.sc (x.heap.objs.length + 1) x.heap l'.data = .ok p := by
  obtain ⟨t, h1, h2, h3, h4⟩ := Table.put_spec (V := VElem) (C13_int_keys someEnv.sc) (t := Table.new) (Dict.new_wf (by decide))
    (fun e he => by simp [Table.new, Dict.entries_new] at he) (k := .int 1) ⟨1, rfl⟩ (some ⟨0, 0, 1, 7⟩)
  have hent : Dict.entries t = [(.int 1, ⟨0, 0, 1, 7⟩)] := by
    have : Dict.entries (Table.new : Table.Tbl VElem) = [] := by simp [Table.new, Dict.entries_new]
    rw [this] at h4
    exact List.perm_singleton.mp h4
  refine ⟨fun _ _ v vm => .ok (vm, some v), { VM.push VM.new (.atom (.int 1)) with other := { VM.new.other with vstigs := [(1, ⟨t, some 1, none⟩)] } }, _, ⟨t, some 1, none⟩, _, ⟨0, 0, 1, 7⟩, ⟨0, 0, 1, 3⟩,
    _, ⟨0, 0, 1, 7⟩, .int 1, _, _, rfl, rfl, rfl, C13_int_keys someEnv.sc, h2, h3, ⟨1, rfl⟩, ?_, by decide, rfl, rfl⟩
  rw [Table.get_spec (C13_int_keys someEnv.sc) h2 h3 ⟨1, rfl⟩, hent]
  simp [Table.eqd]

end Buzz.Props
