import Verif.TypeLib

/-
`foreach`, `map`, `reduce` and `filter` of src/buzz/buzztype.c as C functions of the machine, with real calls of closures.

`F` are the C functions registered when the callback runs and `m` bounds the steps of each call and the number of entries visited in a bucket (the loop
never ends if every call adds an entry behind the current one).
-/
namespace Buzz.VM

open Buzz.F32 Buzz.Msg Buzz.Heap

/-- A table entry: content and address of the key, address of the value. -/
abbrev Entry3 := Obj × (Nat × Nat)

/-- `t->t.value` of an object that was a table when it was checked. -/
def tabAt (vm : VM) (a : Nat) : Res (Table.Tbl (Nat × Nat)) := do
  let m ← deref vm.heap a
  match m.cell with
  | .tab t => pure t
  | _ => .ub

/-- The inner loop of `buzzdict_foreach` (buzzdict.c 172-175), from position `j`.  The bucket is read again in each iteration; if the callback has emptied it,
`buzzdarray_size` is applied to NULL. -/
def bucketLoop (body : Entry3 → VM → Res VM) (a i : Nat) : Nat → Nat → VM → Res VM
  | 0, _, _ => .hang
  | m + 1, j, vm => do
    let t ← tabAt vm a
    match t.buckets[i]? with
    | some (some es) =>
      match es[j]? with
      | some e => do
        let vm ← body e vm
        bucketLoop body a i m (j + 1) vm
      | none => pure vm
    | _ => .ub

/-- The outer loop of `buzzdict_foreach` (buzzdict.c 168-177) over the given buckets. -/
def tableLoop (body : Entry3 → VM → Res VM) (a m : Nat) : List Nat → VM → Res VM
  | [], vm => pure vm
  | i :: is, vm => do
    let t ← tabAt vm a
    match t.buckets[i]? with
    | some (some _) => do
      let vm ← bucketLoop body a i m 0 vm
      tableLoop body a m is vm
    | some none => tableLoop body a m is vm
    | none => .ub

/-- `buzzdict_foreach` (buzzdict.c 163-178) on a table of the script. -/
def dictForeach (body : Entry3 → VM → Res VM) (a m : Nat) (vm : VM) : Res VM := do
  let t ← tabAt vm a
  tableLoop body a m (List.range t.buckets.length) vm

/-- The closure, key and value pushed for a callback (buzztype.c 302-304, 345-347, 414-416, 465-467). -/
def pushEntry (ca : Nat) (e : Entry3) (vm : VM) : VM := pushAddr (pushAddr (pushAddr vm ca) e.2.1) e.2.2

/-- `buzzobj_foreach_entry` (297-310). -/
def foreachEntry (E : Env) (F : CFuns) (m ca : Nat) (e : Entry3) (vm : VM) : Res VM :=
  if vm.state ≠ .ready then pure vm
  else do
    let vm ← closureCall E F m 2 (pushEntry ca e vm)
    if vm.state ≠ .ready then pure vm else pure (pop vm)

/-- `key` and `data` still point into the table (they are used after the call in 362-365 and 484).  Simplification: an entry that has been removed and put
back with the same objects during the call is not noticed. -/
def stillThere (ta : Nat) (e : Entry3) (vm : VM) : Res Unit := do
  let t ← tabAt vm ta
  if e ∈ Dict.entries t then pure () else .ub

/-- A result is stored under the key of the entry; nil removes the key (361-366). -/
def mapResult (E : Env) (t : Table.Tbl (Nat × Nat)) (e : Entry3) (r : Nat) : Cell → Res (Table.Tbl (Nat × Nat))
  | .atom .nil => Table.remove E.sc t e.1
  | _ => Table.set E.sc t e.1 (e.2.1, r)

/-- `buzzobj_map_entry` (338-369); `ra` is the table returned. -/
def mapEntry (E : Env) (F : CFuns) (m ta ca ra : Nat) (e : Entry3) (vm : VM) : Res VM :=
  if vm.state ≠ .ready then pure vm
  else do
    let ss := vm.stack.length
    let vm ← closureCall E F m 2 (pushEntry ca e vm)
    if vm.state ≠ .ready then pure vm
    else if vm.stack.length ≤ ss then pure (setErr vm .stack)
    else do
      let r ← peekAddr vm 1
      let c ← peekCell vm 1
      stillThere ta e vm
      let t ← tabAt vm ra
      let t' ← mapResult E t e r c
      pure (pop { vm with heap := write vm.heap ra (.tab t') })

/-- `buzzobj_reduce_entry` (404-427). -/
def reduceEntry (E : Env) (F : CFuns) (m ca : Nat) (e : Entry3) (vm : VM) : Res VM :=
  if vm.state ≠ .ready then pure vm
  else do
    let acc ← peekAddr vm 1
    let vm := pop vm
    let ss := vm.stack.length
    let vm ← closureCall E F m 3 (pushAddr (pushEntry ca e vm) acc)
    if vm.state ≠ .ready then pure vm
    else if vm.stack.length ≤ ss then pure (setErr vm .stack)
    else pure vm

/-- Nil and the integer 0 reject an entry (481-483). -/
def rejects : Cell → Bool
  | .atom .nil => true
  | .atom (.int v) => v == 0
  | _ => false

/-- `buzzobj_filter_entry` (458-488). -/
def filterEntry (E : Env) (F : CFuns) (m ta ca ra : Nat) (e : Entry3) (vm : VM) : Res VM :=
  if vm.state ≠ .ready then pure vm
  else do
    let ss := vm.stack.length
    let vm ← closureCall E F m 2 (pushEntry ca e vm)
    if vm.state ≠ .ready then pure vm
    else if vm.stack.length ≤ ss then pure (setErr vm .stack)
    else do
      let c ← peekCell vm 1
      if rejects c then pure (pop vm)
      else do
        stillThere ta e vm
        let t ← tabAt vm ra
        let t' ← Table.set E.sc t e.1 e.2
        pure (pop { vm with heap := write vm.heap ra (.tab t') })

/-- The checks at the beginning of the four functions (314-322, 373-381, 431-439, 492-500): `n` arguments, of which the first is a table and the second a
closure, both left on the stack; then `k` with their addresses. -/
def withTableAndClosure (n : Nat) (vm : VM) (k : Nat → Nat → VM → Res VM) : Res VM := do
  let a ← lnum vm
  if a ≠ n then pure (setErr vm .lnum)
  else do
    let vm ← lload vm 1
    let tc ← peekCell vm 1
    match tc with
    | .tab _ => do
      let ta ← peekAddr vm 1
      let vm ← lload vm 2
      let cc ← peekCell vm 1
      match cc with
      | .clo _ _ _ => do
        let ca ← peekAddr vm 1
        k ta ca vm
      | _ => pure (setErr vm .type)
    | _ => pure (setErr vm .type)

/-- `buzzobj_foreach` (312-327). -/
def objForeach (E : Env) (F : CFuns) (m : Nat) (vm : VM) : Res VM :=
  withTableAndClosure 2 vm fun ta ca vm => do
    let vm ← dictForeach (foreachEntry E F m ca) ta m vm
    ret0 vm

/-- `buzzobj_map` (371-394). -/
def objMap (E : Env) (F : CFuns) (m : Nat) (vm : VM) : Res VM :=
  withTableAndClosure 2 vm fun ta ca vm => do
    let vm := pushT vm
    let ra ← peekAddr vm 1
    let vm ← dictForeach (mapEntry E F m ta ca ra) ta m vm
    ret1 vm

/-- `buzzobj_reduce` (429-447). -/
def objReduce (E : Env) (F : CFuns) (m : Nat) (vm : VM) : Res VM :=
  withTableAndClosure 3 vm fun ta ca vm => do
    let vm ← lload vm 3
    let vm ← dictForeach (reduceEntry E F m ca) ta m vm
    ret1 vm

/-- `buzzobj_filter` (490-513). -/
def objFilter (E : Env) (F : CFuns) (m : Nat) (vm : VM) : Res VM :=
  withTableAndClosure 2 vm fun ta ca vm => do
    let vm := pushT vm
    let ra ← peekAddr vm 1
    let vm ← dictForeach (filterEntry E F m ta ca ra) ta m vm
    ret1 vm

/-- C functions with these four among them, in the order of registration (buzztype.c 657-684, after the 11 functions of buzzneighbors.c); `k` bounds how deep
they are nested through callbacks. -/
def hofFuns (E : Env) (m : Nat) (other : CFuns) : Nat → CFuns
  | 0 => other
  | k + 1 => fun n vm =>
    match n with
    | 16 => objForeach E (hofFuns E m other k) m vm
    | 17 => objMap E (hofFuns E m other k) m vm
    | 18 => objReduce E (hofFuns E m other k) m vm
    | 19 => objFilter E (hofFuns E m other k) m vm
    | n => other n vm

end Buzz.VM
