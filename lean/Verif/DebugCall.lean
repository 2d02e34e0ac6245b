import Verif.Debug

/-
Calling functions under the debugger: `buzzdebug_closure_call` and `buzzdebug_function_call` (buzzdebug.c 301-362).
-/
namespace Buzz.Debug

open Buzz.Msg Buzz.VM

/-- The loop of `buzzdebug_closure_call` (319-325), at most `n` rounds. -/
def callLoop (E : Env) (F : CFuns) (d : Dbg) (base : Nat) : Nat → VM → Res VM
  | 0, _ => .hang
  | n + 1, vm => do
    let vm ← step E F (if bpExists d vm.pc then { vm with state := .stopped } else vm)
    if vm.state ≠ .ready then pure vm
    else if base < vm.rest.length then callLoop E F d base n vm
    else pure vm

/-- Insertion below the closure (311).  The array is given the new object where it expects the address of a pointer, so it copies the first bytes of the object, which are zero: `x` stands
for this null pointer.  The position wraps around as in `insertSelf`. -/
def insertBytes (vm : VM) (argc x : Nat) : Res VM :=
  if vm.stack.length < argc + 1 then .hang else .ok { vm with stack := vm.stack.take (argc + 1) ++ x :: vm.stack.drop (argc + 1) }

/-- `buzzdebug_closure_call` (301-327).  The result of `buzzvm_callc` is not looked at. -/
def closureCall (E : Env) (F : CFuns) (d : Dbg) (n argc x : Nat) (vm : VM) : Res VM :=
  if vm.state ≠ .ready ∧ vm.state ≠ .stopped then .ok vm
  else do
    let u ← insertBytes { vm with state := .ready } argc x
    let u ← call F false (pushInt u (intOfU32 argc))
    callLoop E F d vm.rest.length n u

/-- `buzzdebug_function_call` (332-362).  With arguments the first bytes of the closure are inserted instead of its address (354-356), an invalid pointer that is dereferenced next. -/
def functionCall (E : Env) (F : CFuns) (d : Dbg) (n : Nat) (name : Bytes) (argc x : Nat) (vm : VM) : Res VM :=
  if vm.state ≠ .ready ∧ vm.state ≠ .stopped ∧ vm.state ≠ .done then .ok vm
  else do
    let r ← Strman.register vm.strings name false
    let vm ← gload (pushS { vm with strings := r.1, state := .ready } r.2)
    let f ← peekCell vm 1
    match f with
    | .clo _ _ _ => if 0 < argc then .ub else closureCall E F d n 0 x vm
    | _ => pure (setErr vm .type)

end Buzz.Debug
