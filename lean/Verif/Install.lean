import Verif.SemLib
import Verif.NbrLib

/-
The end of `buzzvm_set_bcode` (buzzvm.c 686-704): after the functions of the script have been defined, the machine registers its own.  The
C functions that do it are sequences of calls that push objects and write tables and global variables; each call is a command here.
-/
namespace Buzz.VM

open Buzz.Msg Buzz.Heap Buzz.MathLib

/-- One call of the C code.  `t` is the C variable with a table. -/
inductive Cmd where
  | name (x : String)  -- buzzvm_pushs(vm, buzzvm_string_register(vm, x, 1))
  | temp (x : String)  -- buzzvm_pushs(vm, buzzvm_string_register(vm, x, 0))
  | func               -- buzzvm_pushcc(vm, buzzvm_function_register(vm, f)), for the next function f
  | table              -- buzzvm_pusht(vm)
  | var                -- t = buzzheap_newobj(vm, BUZZTYPE_TABLE)
  | top                -- t = buzzvm_stack_at(vm, 1)
  | push               -- buzzvm_push(vm, t)
  | dup                -- buzzvm_dup(vm)
  | robot              -- buzzvm_pushi(vm, vm->robot)
  | int (v : Int)      -- buzzvm_pushi(vm, v)
  | flt (w : Nat)      -- buzzvm_pushf(vm, v), by the bits of v
  | put                -- buzzvm_tput(vm)
  | store              -- buzzvm_gstore(vm)
  | load               -- buzzvm_gload(vm)
  | resetNbrs          -- buzzneighbors_reset(vm)
  | addNbr (id d a e : Nat)  -- buzzneighbors_add(vm, id, d, a, e), by the bits of d, a and e

/-- Is the command about the table `neighbors`? -/
def Cmd.nbr : Cmd → Bool
  | .resetNbrs => true
  | .addNbr .. => true
  | _ => false

/-- How often a command registers a string, at most. -/
def Cmd.names : Cmd → Nat
  | .name _ => 1
  | .temp _ => 1
  | .resetNbrs => 2
  | .addNbr .. => 6
  | _ => 0

/-- What a command does to the machine and the C variable; like the C code, it goes on after errors. -/
def cmd (E : Env) (robot : Nat) : Cmd → VM × Nat → Res (VM × Nat)
  | .name x, (vm, t) => do
    let r ← Strman.register vm.strings (ascii x) true
    pure (pushS { vm with strings := r.1 } r.2, t)
  | .temp x, (vm, t) => do
    let r ← Strman.register vm.strings (ascii x) false
    pure (pushS { vm with strings := r.1 } r.2, t)
  | .func, (vm, t) => pure (pushC (functionRegister vm).1 ((functionRegister vm).2 : Int) false, t)
  | .table, (vm, t) => pure (pushT vm, t)
  | .var, (vm, _) => pure ({ vm with heap := (newobj vm.heap (.tab Table.new)).1 }, (newobj vm.heap (.tab Table.new)).2)
  | .top, (vm, _) => do
    let a ← peekAddr vm 1
    pure (vm, a)
  | .push, (vm, t) => pure (pushAddr vm t, t)
  | .dup, (vm, t) => pure (dup vm, t)
  | .robot, (vm, t) => pure (pushInt vm (robot : Int), t)
  | .int v, (vm, t) => pure (pushInt vm v, t)
  | .flt w, (vm, t) => pure (pushFlt vm (ofBits w), t)
  | .put, (vm, t) => do
    let vm ← tput E vm
    pure (vm, t)
  | .store, (vm, t) => do
    let vm ← gstore vm
    pure (vm, t)
  | .load, (vm, t) => do
    let vm ← gload vm
    pure (vm, t)
  | .resetNbrs, (vm, t) => do
    let vm ← nbrReset E vm
    pure (vm, t)
  | .addNbr id d a e, (vm, t) => do
    let vm ← nbrAdd E id d a e vm
    pure (vm, t)

/-- Several commands. -/
def cmds (E : Env) (robot : Nat) : List Cmd → VM × Nat → Res (VM × Nat)
  | [], x => .ok x
  | c :: cs, x => do
    let x ← cmd E robot c x
    cmds E robot cs x

/-- `function_register` of buzzneighbors.c (23-27), buzzio.c (9-13) and buzzstring.c (9-13). -/
def varFun (x : String) : List Cmd := [.push, .name x, .func, .put]

/-- `function_register` of buzzmath.c (76-86), buzzswarm.c (9-13) and buzzvstig.c (10-14, 35-39). -/
def dupFun (x : String) : List Cmd := [.dup, .name x, .func, .put]

/-- `buzzneighbors_new` (buzzneighbors.c 29-62). -/
def regNeighbors : List Cmd :=
  .var :: (["get", "filter", "kin", "nonkin", "foreach", "map", "reduce", "count", "broadcast", "listen", "ignore"].flatMap varFun ++ [.name "neighbors", .push, .store])

/-- The robot id (buzzvm.c 688-690). -/
def regId : List Cmd := [.name "id", .robot, .store]

/-- `buzzobj_register` (buzztype.c 657-684). -/
def regObj : List Cmd :=
  ["type", "int", "float", "clone", "size", "foreach", "map", "reduce", "filter", "isnil", "isint", "isfloat", "isstring", "istable", "isclosure", "isuserdata"].flatMap
    (fun x => [.name x, .func, .store])

/-- `buzzvstig_register` (buzzvstig.c 31-43). -/
def regStig : List Cmd := .name "stigmergy" :: .table :: (dupFun "create" ++ [.store])

/-- `buzzswarm_register` (buzzswarm.c 275-288). -/
def regSwarm : List Cmd := .name "swarm" :: .table :: (["create", "union", "intersection", "difference", "id"].flatMap dupFun ++ [.store])

/-- `buzzmath_register` (buzzmath.c 94-132).  The bits of 3.14159265358979323846 as a float are `0x40490FDB`. -/
def regMath : List Cmd :=
  .name "math" :: .table ::
    (["abs", "floor", "ceil", "round", "log", "log2", "log10", "exp", "sqrt", "sin", "cos", "tan", "asin", "acos", "atan", "min", "max"].flatMap dupFun ++
    [.dup, .name "pi", .flt 0x40490FDB, .put, .dup, .name "rng", .table] ++
    ["setseed", "uniform", "gaussian", "exponential"].flatMap dupFun ++ [.put, .store])

/-- `buzzio_register` (buzzio.c 46-64) with `buzzio_update_error` (26-41) for `errno` 0. -/
def regIo : List Cmd :=
  .var :: (["fopen", "fclose", "fsize", "fforeach", "fwrite"].flatMap varFun ++
    [.name "io", .push, .store, .name "io", .load, .top, .push, .name "errno", .int 0, .put, .name "error_message", .temp "No error", .put])

/-- `buzzstring_register` (buzzstring.c 18-34). -/
def regString : List Cmd :=
  .var :: (["length", "sub", "concat", "tostring", "toint", "tofloat"].flatMap varFun ++ [.name "string", .push, .store])

/-- The end of `buzzvm_set_bcode` (686-702). -/
def library : List Cmd := regNeighbors ++ regId ++ regObj ++ regStig ++ regSwarm ++ regMath ++ regIo ++ regString

/-- Registers the functions of the machine. -/
def install (E : Env) (robot : Nat) (vm : VM) : Res VM := do
  let x ← cmds E robot library (vm, 0)
  pure x.1

/-- `buzzvm_set_bcode` (653-705) for a machine with the robot id `robot`; `n` bounds the number of steps.  Simplification: if the step of the
`nop` fails, the C code goes on with the registration all the same; and it returns `READY` in any case. -/
def setBcode (E : Env) (F : CFuns) (n robot : Nat) (code : Bytes) (vm : VM) : Res VM := do
  let vm ← load E code vm
  let vm ← boot E F n vm
  if vm.state = .ready then install E robot vm else pure vm

end Buzz.VM

namespace Buzz.Lang

open Buzz.Msg Buzz.VM

/-- The table `neighbors`. -/
def nbrTable : Ev Obj := fun s =>
  match globalVal (ascii "neighbors") s with
  | .tab l => .ok (.tab l) s
  | _ => .odd

/-- There are no neighbors. -/
def nbrReset : Ev Unit := do
  let t ← nbrTable
  let l ← alloc (.tab [])
  tabPut t (.str 0 (ascii "poses")) (.tab l)

/-- The table with the neighbors; it is made if there is none. -/
def nbrData (t : Obj) : Ev Obj := do
  let p ← tabGet t (.str 0 (ascii "poses"))
  if p = .nil then do
    let l ← alloc (.tab [])
    tabPut t (.str 0 (ascii "poses")) (.tab l)
    pure (.tab l)
  else pure p

/-- The entry of the robot `id` among the neighbors `p`. -/
def nbrEntry (p : Obj) (id d a e : Nat) : Ev Unit := do
  let l ← alloc (.tab [])
  tabPut (.tab l) (.str 0 (ascii "distance")) (.flt (ofBits d))
  tabPut (.tab l) (.str 0 (ascii "azimuth")) (.flt (ofBits a))
  tabPut (.tab l) (.str 0 (ascii "elevation")) (.flt (ofBits e))
  tabPut p (.int (id : Int)) (.tab l)

/-- The neighbor `id` is at this distance and these angles, given by their bits. -/
def nbrAdd (id d a e : Nat) : Ev Unit := do
  let t ← nbrTable
  let p ← nbrData t
  nbrEntry p id d a e

/-- The C variable, the values on the stack, how many functions are registered, and the global variable stored last. -/
structure Regs where
  t : Option Obj
  ws : List Obj
  nf : Nat
  last : Option Bytes

/-- What a command does to the state of the program; `id` is the value of the robot's number. -/
def reg (id : Obj) : Cmd → Regs → Ev Regs
  | .name x, r => pure { r with ws := .str 0 (ascii x) :: r.ws }
  | .temp x, r => pure { r with ws := .str 0 (ascii x) :: r.ws }
  | .func, r => do
    let l ← alloc (.host r.nf [.nil])
    pure { r with ws := .clo l :: r.ws, nf := r.nf + 1 }
  | .table, r => do
    let l ← alloc (.tab [])
    pure { r with ws := .tab l :: r.ws }
  | .var, r => do
    let l ← alloc (.tab [])
    pure { r with t := some (.tab l) }
  | .top, r =>
    match r.ws with
    | v :: _ => pure { r with t := some v }
    | [] => odd
  | .push, r =>
    match r.t with
    | some v => pure { r with ws := v :: r.ws }
    | none => odd
  | .dup, r =>
    match r.ws with
    | v :: ws => pure { r with ws := v :: v :: ws }
    | [] => odd
  | .robot, r => pure { r with ws := id :: r.ws }
  | .int v, r => pure { r with ws := .int v :: r.ws }
  | .flt w, r => pure { r with ws := .flt (ofBits w) :: r.ws }
  | .put, r =>
    match r.ws with
    | v :: k :: t :: ws => do
      tabPut t k v
      pure { r with ws := ws }
    | _ => odd
  | .store, r =>
    match r.ws with
    | v :: .str 0 x :: ws => do
      putGlobal x v
      pure { r with ws := ws, last := some x }
    | _ => odd
  | .load, r =>
    match r.ws with
    | .str 0 x :: ws => fun s => if r.last = some x then .ok { r with ws := globalVal x s :: ws } s else .odd
    | _ => odd
  | .resetNbrs, r => do
    nbrReset
    pure { r with t := none }
  | .addNbr n d a e, r => do
    nbrAdd n d a e
    pure { r with t := none }

/-- Several commands. -/
def regs (id : Obj) : List Cmd → Regs → Ev Regs
  | [], r => pure r
  | c :: cs, r => do
    let r ← reg id c r
    regs id cs r

/-- The machine's functions are registered. -/
def install (robot : Nat) : Ev Unit := do
  let _ ← regs (.int (robot : Int)) library ⟨none, [], 0, none⟩
  pure ()

end Buzz.Lang
