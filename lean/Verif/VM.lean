import Verif.Heap
import Verif.Hof

/-
The virtual machine, src/buzz/buzzvm.c and buzzvm.h.

The machine state is `struct buzzvm_s` (buzzvm.h 145-198) without the input queue and the random number generator; `Other` has what no
instruction uses, some of which the collector marks.  Not modelled: error message texts and `oldpc`.  The registered C functions (`vm->flist`) are a parameter `F` indexed by position.

A stack element is the address of a heap object.  Reading outside a stack, dereferencing the null `lsyms` and fetching outside
the bytecode are `.ub`.
-/
namespace Buzz.VM

open Buzz.F32 Buzz.Msg Buzz.Heap

/-- `buzzvm_state` (buzzvm.h 26-32). -/
inductive State where
  | nocode | ready | done | error | stopped
  deriving DecidableEq

/-- `buzzvm_error` (buzzvm.h 37-48). -/
inductive Err where
  | none | instr | stack | lnum | pc | flist | type | string | swarm
  deriving DecidableEq

/-- `struct buzzvm_lsyms_s` (buzzvm.h 133-140). -/
structure Frame where
  syms : List Nat
  swarm : Bool

/-- `struct buzzvstig_elem_s` (buzzvstig.h 14-22) with the address of the key object, to which the dictionary has a pointer. -/
structure VElem where
  key : Nat
  data : Nat
  ts : Nat
  robot : Nat
  deriving DecidableEq

/-- `struct buzzvstig_s` (buzzvstig.h 27-32): the dictionary, by the contents of the keys, and the two closures.  Hashing and comparison are those of
tables (buzzvstig.c 49-55), and there are 10 buckets (buzzvstig.c 94-100). -/
structure Stig where
  data : Table.Tbl VElem
  onconflict : Option Nat
  onconflictlost : Option Nat

/-- `struct buzzoutmsg_vstig_s` (buzzoutmsg.c 34-39): the stigmergy, the content of the key, and the copies of key and value. -/
structure StigMsg where
  id : Nat
  k : Obj
  e : VElem
  deriving DecidableEq

/-- What concerns swarms: `vm->swarms` (id to membership byte), `vm->swarmmembers`, the queues of list, join and leave messages, `vm->swarmbroadcast`. -/
structure SwarmPart where
  swarms : List (Nat × Nat)
  members : Swarm.Members
  lists : List (List Nat)
  joins : List Nat
  leaves : List Nat
  count : Nat

/-- What the stigmergies, the listeners, the swarms and the outgoing queues hold. -/
structure Other where
  vstigs : List (Nat × Stig)
  listeners : List (Nat × Nat)
  bcasts : List (Nat × Nat)
  puts : List StigMsg
  queries : List StigMsg
  swarm : SwarmPart

/-- The objects of a stigmergy. -/
def Stig.roots (s : Stig) : VRoots := ⟨s.onconflict, s.onconflictlost, (Dict.entries s.data).map fun e => (e.2.key, e.2.data)⟩

/-- `struct buzzvm_s`.  `stack` is `vm->stack` with the top first, `rest` the lower stacks with the nearest first (so
`vm->stacks` has `rest.length + 1` elements); `frames` is `vm->lsymts` with the current one first, `vm->lsyms` is its head, NULL
when it is empty. -/
structure VM where
  code : Bytes
  pc : Int
  state : State
  error : Err
  stack : List Nat
  rest : List (List Nat)
  frames : List Frame
  gsyms : List (Nat × Nat)
  strings : Strman.SM Bytes
  heap : Heap
  nfuns : Nat
  swarmstack : List Nat
  other : Other

/-- What is taken from the C library and the host: `strcmp`, `powf`, byte order, and the integer with the bit pattern of a
float (used by `buzzvm_mod` on mixed operands). -/
structure Env where
  sc : Bytes → Bytes → Int
  powf : Flt → Flt → Flt
  bits : Flt → Int
  endian : Endian

/-- The registered C functions. -/
abbrev CFuns := Nat → VM → Res VM

/-- `buzzvm_seterror` (618-648) without the text; also the direct assignments (43-44, 1493-1494, 1556-1557). -/
def setErr (vm : VM) (e : Err) : VM := { vm with state := .error, error := e }

/-- `buzzvm_stack_assert` (buzzvm.h 737-744); `buzzdarray_size` is a signed 64-bit number. -/
def need (vm : VM) (n : Int) (k : Res VM) : Res VM := if (vm.stack.length : Int) - n < 0 then .ok (setErr vm .stack) else k

/-- `buzzvm_stack_at` (buzzvm.h 798), 1 is the top: the address. -/
def peekAddr (vm : VM) (i : Int) : Res Nat :=
  if 1 ≤ i then
    match vm.stack[i.toNat - 1]? with
    | some a => .ok a
    | none => .ub
  else .ub

/-- The cell at a stack position. -/
def peekCell (vm : VM) (i : Int) : Res Cell := do
  let a ← peekAddr vm i
  let m ← deref vm.heap a
  pure m.cell

/-- The value at a stack position. -/
def peek (vm : VM) (i : Int) : Res Obj := do
  let a ← peekAddr vm i
  let m ← deref vm.heap a
  pure (objOf a m.cell)

/-- `buzzdarray_pop(vm->stack)`, n times. -/
def popN (vm : VM) (n : Nat) : VM := { vm with stack := vm.stack.drop n }

/-- `buzzheap_newobj` and `buzzvm_push` (1174-1177). -/
def push (vm : VM) (c : Cell) : VM :=
  { vm with heap := (newobj vm.heap c).1, stack := (newobj vm.heap c).2 :: vm.stack }

/-- `buzzvm_push` (1174-1177) of an existing object. -/
def pushAddr (vm : VM) (a : Nat) : VM := { vm with stack := a :: vm.stack }

/-- `buzzvm_pushi` (1214-1219). -/
def pushInt (vm : VM) (v : Int) : VM := push vm (.atom (.int v))

/-- `buzzvm_pushnil` (1193-1197). -/
def pushNil (vm : VM) : VM := push vm (.atom .nil)

/-! ### Values -/

/-- 32-bit signed arithmetic: overflow is undefined. -/
def chk (x : Int) : Res Obj := if -2147483648 ≤ x ∧ x ≤ 2147483647 then .ok (.int x) else .ub

/-- C `/` on `int32_t`. -/
def divI (a b : Int) : Res Obj := if b = 0 then .ub else chk (a.tdiv b)

/-- `op2 % op1`, plus `op1` if negative (1464-1465).  `INT_MIN % -1` is undefined. -/
def modI (a b : Int) : Res Obj :=
  if b = 0 then .ub
  else if a = -2147483648 ∧ b = -1 then .ub
  else if a.tmod b < 0 then chk (a.tmod b + b) else .ok (.int (a.tmod b))

/-- Sign bit of a float; zero counts as positive. -/
def sgn : Flt → Bool
  | .fin q => decide (q < 0)
  | .inf n => n
  | .nan => false

/-- Float addition. -/
def addF : Flt → Flt → Flt
  | .fin a, .fin b => toFlt (a + b)
  | .inf m, .inf n => if m = n then .inf m else .nan
  | .inf m, .fin _ => .inf m
  | .fin _, .inf n => .inf n
  | _, _ => .nan

/-- Float multiplication. -/
def mulF (a b : Flt) : Flt :=
  match a, b with
  | .fin a, .fin b => toFlt (a * b)
  | .nan, _ => .nan
  | _, .nan => .nan
  | a, b => if a = .fin 0 ∨ b = .fin 0 then .nan else .inf (xor (sgn a) (sgn b))

/-- Float division.  Simplification: a zero divisor counts as `+0`. -/
def divF (a b : Flt) : Flt :=
  match a, b with
  | .nan, _ => .nan
  | _, .nan => .nan
  | .inf _, .inf _ => .nan
  | .inf m, b => .inf (xor m (sgn b))
  | .fin _, .inf _ => .fin 0
  | .fin a, .fin b => if b = 0 then (if a = 0 then .nan else .inf (decide (a < 0))) else toFlt (a / b)

/-- `fmodf`: the remainder with the sign of the dividend. -/
def fmodF : Flt → Flt → Flt
  | .fin a, .fin b => if b = 0 then .nan else .fin (a - b * (if 0 ≤ a / b then ⌊a / b⌋ else ⌈a / b⌉))
  | .fin a, .inf _ => .fin a
  | _, _ => .nan

/-- The float with a given bit pattern. -/
def ofBits (n : Nat) : Flt :=
  let e := n / 8388608 % 256
  let m := n % 8388608
  let s : ℚ := if n / 2147483648 % 2 = 1 then -1 else 1
  if e = 255 then (if m = 0 then .inf (decide (n / 2147483648 % 2 = 1)) else .nan)
  else if e = 0 then .fin (s * m * 2 ^ (-149 : ℤ))
  else .fin (s * (m + 8388608) * 2 ^ ((e : ℤ) - 150))

/-- Integer or float operands as floats. -/
def num : Obj → Option Flt
  | .int v => some (toFlt v)
  | .flt f => some f
  | _ => none

/-- Binary instructions. -/
inductive Bin where
  | add | sub | mul | div | mod | pow | land | lor | band | bor | shl | shr | eq | neq | gt | gte | lt | lte
  deriving DecidableEq

/-- Unary instructions. -/
inductive Un where
  | unm | lnot | bnot
  deriving DecidableEq

/-- `buzzvm_binary_op_arith` (35-72): integer operation on integers, otherwise float operation. -/
def arithV (fi : Int → Int → Res Obj) (ff : Flt → Flt → Flt) (a b : Obj) : Option (Res Obj) :=
  match a, b with
  | .int x, .int y => some (fi x y)
  | _, _ =>
    match num a, num b with
    | some x, some y => some (.ok (.flt (ff x y)))
    | _, _ => none

/-- `res < 0. ? res + x : res` of `buzzvm_mod`. -/
def fixMod (r x : Flt) : Flt := if Obj.ltF r (.fin 0) then addF r x else r

/-- `buzzvm_mod` (1457-1496).  On mixed operands the value added is the other member of the union (lines 1479 and 1486). -/
def modV (E : Env) : Obj → Obj → Option (Res Obj)
  | .int a, .int b => some (modI a b)
  | .flt a, .flt b => some (.ok (.flt (fixMod (fmodF a b) b)))
  | .flt a, .int b => some (.ok (.flt (fixMod (fmodF a (toFlt b)) (ofBits (u32OfInt b)))))
  | .int a, .flt b => some (.ok (.flt (fixMod (fmodF (toFlt a) b) (toFlt (E.bits b)))))
  | _, _ => none

/-- `buzzvm_pow` (1501-1536): always a float. -/
def powV (E : Env) (a b : Obj) : Option (Res Obj) :=
  match num a, num b with
  | some x, some y => some (.ok (.flt (E.powf x y)))
  | _, _ => none

/-- The negated test of `buzzvm_binary_op_logic` (91-95), `buzzvm_lnot` (1584-1586) and the jumps (953-955, 966-968). -/
def truth (o : Obj) : Bool := !(decide (o.type = 0) || match o with | .int v => decide (v = 0) | _ => false)

/-- The integer of a C truth value. -/
def ofBool (b : Bool) : Obj := .int (if b then 1 else 0)

/-- `buzzvm_binary_op_bitwise` (107-117). -/
def bitV (f : Int → Int → Res Obj) : Obj → Obj → Option (Res Obj)
  | .int a, .int b => some (f a b)
  | _, _ => none

/-- `<<`: undefined for a negative left operand, a count outside 0..31 and an unrepresentable result. -/
def shlI (a b : Int) : Res Obj := if 0 ≤ a ∧ 0 ≤ b ∧ b < 32 then chk (a * 2 ^ b.toNat) else .ub

/-- `>>`: arithmetic (implementation-defined for negative numbers); undefined for a count outside 0..31. -/
def shrI (a b : Int) : Res Obj := if 0 ≤ b ∧ b < 32 then .ok (.int (a / 2 ^ b.toNat)) else .ub

/-- `buzzvm_binary_op_cmp` (128-137). -/
def cmpV (E : Env) (p : Int → Bool) (a b : Obj) : Option (Res Obj) :=
  some do
    let c ← Obj.cmp E.sc a b
    pure (ofBool (decide (c = 2) || p c))

/-- Result of a binary instruction on stack(#2) and stack(#1); `none` is a type error. -/
def binV (E : Env) : Bin → Obj → Obj → Option (Res Obj)
  | .add => arithV (fun a b => chk (a + b)) addF
  | .sub => arithV (fun a b => chk (a - b)) (fun a b => addF a (negF b))
  | .mul => arithV (fun a b => chk (a * b)) mulF
  | .div => arithV divI divF
  | .mod => modV E
  | .pow => powV E
  | .land => fun a b => some (.ok (ofBool (truth a && truth b)))
  | .lor => fun a b => some (.ok (ofBool (truth a || truth b)))
  | .band => bitV (fun a b => .ok (.int (intOfU32 (u32OfInt a &&& u32OfInt b))))
  | .bor => bitV (fun a b => .ok (.int (intOfU32 (u32OfInt a ||| u32OfInt b))))
  | .shl => bitV shlI
  | .shr => bitV shrI
  | .eq => cmpV E (fun c => decide (c = 0))
  | .neq => cmpV E (fun c => decide (c ≠ 0))
  | .gt => cmpV E (fun c => decide (c > 0))
  | .gte => cmpV E (fun c => decide (c ≥ 0))
  | .lt => cmpV E (fun c => decide (c < 0))
  | .lte => cmpV E (fun c => decide (c ≤ 0))

/-- Whether a type error leaves the operands on the stack: `mod` and `pow` pop first (1461-1462, 1505-1506). -/
def binKeep : Bin → Bool
  | .mod => false
  | .pow => false
  | _ => true

/-- `buzzvm_unm` (1541-1560), `lnot` (1579-1588), `bnot` (1607-1616). -/
def unV : Un → Obj → Option (Res Obj)
  | .unm, .int v => some (chk (-v))
  | .unm, .flt f => some (.ok (.flt (negF f)))
  | .unm, _ => none
  | .lnot, o => some (.ok (ofBool (!truth o)))
  | .bnot, .int v => some (.ok (.int (-v - 1)))
  | .bnot, _ => none

/-- `unm` pops before its type check (1544). -/
def unKeep : Un → Bool
  | .unm => false
  | _ => true

/-- The binary instructions: `op1 = stack(#1)`, `op2 = stack(#2)`, result of `op2 oper op1`. -/
def binop (E : Env) (b : Bin) (vm : VM) : Res VM :=
  need vm 2 do
    let x ← peek vm 1
    let y ← peek vm 2
    match binV E b y x with
    | none => pure (setErr (if binKeep b then vm else popN vm 2) .type)
    | some r => do
      let v ← r
      pure (push (popN vm 2) (.atom v))

/-- The unary instructions. -/
def unop (u : Un) (vm : VM) : Res VM :=
  need vm 1 do
    let x ← peek vm 1
    match unV u x with
    | none => pure (setErr (if unKeep u then vm else popN vm 1) .type)
    | some r => do
      let v ← r
      pure (push (popN vm 1) (.atom v))

/-! ### Stack, variables, tables -/

/-- `buzzvm_pop` (1145-1154). -/
def pop (vm : VM) : VM := if vm.stack.isEmpty then setErr vm .stack else popN vm 1

/-- `buzzvm_dup` (1159-1169). -/
def dup (vm : VM) : VM :=
  match vm.stack with
  | [] => setErr vm .stack
  | a :: _ => pushAddr vm a

/-- `buzzvm_pushc` (1201-1209). -/
def pushC (vm : VM) (ref : Int) (native : Bool) : VM :=
  let h1 := (newobj vm.heap (.clo native ref [])).1
  let c := (newobj vm.heap (.clo native ref [])).2
  let h2 := (newobj h1 (.atom .nil)).1
  let n := (newobj h1 (.atom .nil)).2
  { vm with heap := write h2 c (.clo native ref [n]), stack := c :: vm.stack }

/-- `buzzvm_pushs` (1234-1247). -/
def pushS (vm : VM) (sid : Nat) : VM :=
  match Strman.get vm.strings (sid % U16) with
  | some s => push vm (.atom (.str (sid % U16) s))
  | none => setErr vm .string

/-- `buzzvm_pushl` (1252-1269): a closure over the current local symbols. -/
def pushL (vm : VM) (ref : Int) : VM :=
  match vm.frames with
  | f :: _ => push vm (.clo true ref f.syms)
  | [] => pushC vm ref true

/-- The type is usable as table key (1282-1287, 1322-1327). -/
def isKey : Obj → Bool
  | .int _ => true
  | .flt _ => true
  | .str _ _ => true
  | _ => false

/-- `buzzvm_pusht` (buzzvm.h): a new table. -/
def pushT (vm : VM) : VM := push vm (.tab Table.new)

/-- `buzzvm_tput` (1274-1310). -/
def tput (E : Env) (vm : VM) : Res VM :=
  need vm 3 do
    let ta ← peekAddr vm 3
    let tc ← peekCell vm 3
    match tc with
    | .tab t => do
      let va ← peekAddr vm 1
      let vc ← peekCell vm 1
      let ka ← peekAddr vm 2
      let k ← peek vm 2
      let vm := popN vm 3
      if isKey k then
        match vc with
        | .atom .nil => do
          let t' ← Table.remove E.sc t k
          pure { vm with heap := write vm.heap ta (.tab t') }
        | .clo n r l => do
          let h := (newobj vm.heap (.clo n r (ta :: l.tail))).1
          let o := (newobj vm.heap (.clo n r (ta :: l.tail))).2
          let t' ← Table.set E.sc t k (ka, o)
          pure { vm with heap := write h ta (.tab t') }
        | _ => do
          let t' ← Table.set E.sc t k (ka, va)
          pure { vm with heap := write vm.heap ta (.tab t') }
      else pure (setErr vm .type)
    | _ => pure (setErr vm .type)

/-- `buzzvm_tget` (1315-1332).  The error message for a bad key formats a number with `%s`, which is undefined (line 1325). -/
def tget (E : Env) (vm : VM) : Res VM :=
  need vm 2 do
    let tc ← peekCell vm 2
    match tc with
    | .tab t => do
      let k ← peek vm 1
      if isKey k then do
        let r ← Table.get E.sc t k
        match r with
        | some v => pure (pushAddr (popN vm 2) v.2)
        | none => pure (pushNil (popN vm 2))
      else .ub
    | _ => pure (setErr vm .type)

/-- `buzzvm_gload` (1337-1346). -/
def gload (vm : VM) : Res VM :=
  need vm 1 do
    let s ← peek vm 1
    match s with
    | .str sid _ =>
      match FMap.get vm.gsyms sid with
      | some a => pure (pushAddr (popN vm 1) a)
      | none => pure (pushNil (popN vm 1))
    | _ => pure (setErr vm .type)

/-- `buzzvm_gstore` (1351-1360). -/
def gstore (vm : VM) : Res VM :=
  need vm 2 do
    let s ← peek vm 2
    match s with
    | .str sid _ => do
      let a ← peekAddr vm 1
      pure { popN vm 2 with gsyms := FMap.set vm.gsyms sid a }
    | _ => pure (setErr vm .type)

/-- `buzzvm_lload` (1676-1688). -/
def lload (vm : VM) (idx : Nat) : Res VM :=
  match vm.frames with
  | [] => .ub
  | f :: _ =>
    if (f.syms.length : Int) - 1 < idx then pure (setErr vm .lnum)
    else match f.syms[idx]? with
      | some a => pure (pushAddr vm a)
      | none => .ub

/-- `buzzvm_lstore` (1693-1699).  Storing beyond the end leaves uninitialised symbols in between, which the next collection
marks: undefined. -/
def lstore (vm : VM) (idx : Nat) : Res VM :=
  need vm 1 do
    let a ← peekAddr vm 1
    match vm.frames with
    | [] => .ub
    | f :: fs =>
      if idx < f.syms.length then pure { popN vm 1 with frames := { f with syms := f.syms.set idx a } :: fs }
      else if idx = f.syms.length then pure { popN vm 1 with frames := { f with syms := f.syms ++ [a] } :: fs }
      else .ub

/-- `buzzvm_lremove` (1701-1710): the symbols are removed even after the error. -/
def lremove (vm : VM) (num : Nat) : Res VM :=
  match vm.frames with
  | [] => .ub
  | f :: fs =>
    let vm' := { vm with frames := { f with syms := f.syms.take (f.syms.length - num) } :: fs }
    if (f.syms.length : Int) - 1 < num then pure (setErr vm' .lnum) else pure vm'

/-! ### Calls -/

/-- The preparation of a call with `n` arguments (1108-1128): local symbols are a copy of the activation record and the arguments in
order; arguments, closure and self are popped, the return address is pushed, and a new stack begins. -/
def enter (vm : VM) (n : Nat) (actrec : List Nat) (sw : Bool) : VM :=
  let vm1 := { vm with frames := ⟨actrec ++ (vm.stack.take n).reverse, sw⟩ :: vm.frames, stack := vm.stack.drop (n + 2) }
  let vm2 := pushInt vm1 vm.pc
  { vm2 with rest := vm2.stack :: vm2.rest, stack := [] }

/-- `buzzvm_call` (1092-1140). -/
def call (F : CFuns) (sw : Bool) (vm : VM) : Res VM :=
  need vm 1 do
    let n ← peek vm 1
    match n with
    | .int argn =>
      let vm := popN vm 1
      if argn = 2147483647 then .ub
      else need vm (argn + 1) do
        let c ← peekCell vm (argn + 1)
        match c with
        | .clo native ref actrec =>
          if native = false ∧ ref ≥ vm.nfuns then pure (setErr vm .flist)
          else
            let vm := enter vm argn.toNat actrec sw
            if native then pure { vm with pc := ref }
            else if ref < 0 then .ub
            else F ref.toNat vm
        | _ => pure (setErr vm .type)
    | _ => pure (setErr vm .type)

/-- Common part of `ret0` and `ret1`: the caller's stack must have the return address on top (1378-1387, 1412-1421). -/
def retTo (vm : VM) (k : VM → VM) : Res VM :=
  need vm 1 do
    let x ← peek vm 1
    match x with
    | .int v => pure (k { popN vm 1 with pc := v })
    | _ => pure (setErr vm .type)

/-- `buzzvm_ret0` (1365-1390). -/
def ret0 (vm : VM) : Res VM :=
  match vm.frames, vm.rest with
  | f :: fs, s :: r =>
    retTo { vm with swarmstack := if f.swarm then vm.swarmstack.tail else vm.swarmstack, frames := fs, stack := s, rest := r } pushNil
  | _, _ => .ub

/-- `buzzvm_ret1` (1395-1424). -/
def ret1 (vm : VM) : Res VM :=
  match vm.frames with
  | [] => .ub
  | f :: fs =>
    let vm := { vm with swarmstack := if f.swarm then vm.swarmstack.tail else vm.swarmstack, frames := fs }
    need vm 1 do
      let a ← peekAddr vm 1
      match vm.rest with
      | [] => .ub
      | s :: r => retTo { vm with stack := s, rest := r } (fun vm => pushAddr vm a)

/-! ### The step function -/

/-- Instructions (buzzvm.h 54-111). -/
inductive Op where
  | nop | done | pushnil | dup | pop | ret0 | ret1
  | bin (b : Bin) | un (u : Un)
  | gload | gstore | pusht | tput | tget | callc | calls
  | pushf | pushi | pushs | pushcn | pushcc | pushl | lload | lstore | lremove | jump | jumpz | jumpnz
  deriving DecidableEq

/-- The opcodes in order (buzzvm.h 54-111). -/
def opcodes : List Op :=
  [.nop, .done, .pushnil, .dup, .pop, .ret0, .ret1, .bin .add, .bin .sub, .bin .mul, .bin .div, .bin .mod, .bin .pow, .un .unm,
   .bin .land, .bin .lor, .un .lnot, .bin .band, .bin .bor, .un .bnot, .bin .shl, .bin .shr, .bin .eq, .bin .neq, .bin .gt,
   .bin .gte, .bin .lt, .bin .lte, .gload, .gstore, .pusht, .tput, .tget, .callc, .calls, .pushf, .pushi, .pushs, .pushcn,
   .pushcc, .pushl, .lload, .lstore, .lremove, .jump, .jumpz, .jumpnz]

/-- `assert_pc(vm->pc)` (710), then continue. -/
def assertPc (vm : VM) (k : VM → Res VM) : Res VM :=
  if vm.pc < 0 ∨ vm.pc ≥ vm.code.length then .ok (setErr vm .pc) else k vm

/-- `inc_pc` (712). -/
def incPc (vm : VM) (k : VM → Res VM) : Res VM := assertPc { vm with pc := vm.pc + 1 } k

/-- Four bytes of bytecode as a number. -/
def rd32 (h : Endian) (buf : Bytes) (i : Nat) : Res Nat := do
  let a ← rd buf i
  let b ← rd buf (i + 1)
  let c ← rd buf (i + 2)
  let d ← rd buf (i + 3)
  match h with
  | .little => pure (a + 256 * b + 65536 * c + 16777216 * d)
  | .big => pure (d + 256 * c + 65536 * b + 16777216 * a)

/-- `get_arg` (714), the argument as unsigned number.  The check demands one byte after the argument. -/
def getArg (E : Env) (vm : VM) (k : VM → Nat → Res VM) : Res VM :=
  if vm.pc + 4 ≥ vm.code.length then .ok (setErr vm .pc)
  else do
    let a ← rd32 E.endian vm.code vm.pc.toNat
    k { vm with pc := vm.pc + 4 } a

/-- Continue only in state ready. -/
def ifReady (vm : VM) (k : VM → Res VM) : Res VM := if vm.state = .ready then k vm else .ok vm

/-- `JUMPZ` and `JUMPNZ` (948-975): a failed check of the target returns before the operand is popped. -/
def jumpIf (vm : VM) (b : Bool) (target : Nat) : Res VM :=
  need vm 1 do
    let x ← peek vm 1
    if truth x = b then assertPc { vm with pc := intOfU32 target } (fun vm => pure (pop vm))
    else pure (pop vm)

/-- The cases of `buzzvm_step` (724-991). -/
def exec (E : Env) (F : CFuns) (vm : VM) : Op → Res VM
  | .nop => incPc vm pure
  | .done => pure { vm with state := .done }
  | .pushnil => incPc vm (fun vm => pure (pushNil vm))
  | .dup => incPc vm (fun vm => pure (dup vm))
  | .pop => ifReady (pop vm) (fun vm => incPc vm pure)
  | .ret0 => do
    let vm ← ret0 vm
    ifReady vm (fun vm => assertPc vm pure)
  | .ret1 => do
    let vm ← ret1 vm
    ifReady vm (fun vm => assertPc vm pure)
  | .bin b => do
    let vm ← binop E b vm
    incPc vm pure
  | .un u => do
    let vm ← unop u vm
    incPc vm pure
  | .gload => incPc vm gload
  | .gstore => incPc vm gstore
  | .pusht => incPc (pushT vm) pure
  | .tput => do
    let vm ← tput E vm
    ifReady vm (fun vm => incPc vm pure)
  | .tget => do
    let vm ← tget E vm
    ifReady vm (fun vm => incPc vm pure)
  | .callc => incPc vm (fun vm => do
    let vm ← call F false vm
    ifReady vm (fun vm => assertPc vm pure))
  | .calls => incPc vm (fun vm => do
    let vm ← call F true vm
    ifReady vm (fun vm => assertPc vm pure))
  | .pushf => incPc vm (fun vm => getArg E vm (fun vm a => pure (push vm (.atom (.flt (ofBits a))))))
  | .pushi => incPc vm (fun vm => getArg E vm (fun vm a => pure (pushInt vm (intOfU32 a))))
  | .pushs => incPc vm (fun vm => getArg E vm (fun vm a => pure (pushS vm a)))
  | .pushcn => incPc vm (fun vm => getArg E vm (fun vm a => pure (pushC vm (intOfU32 a) true)))
  | .pushcc => incPc vm (fun vm => getArg E vm (fun vm a => pure (pushC vm (intOfU32 a) false)))
  | .pushl => incPc vm (fun vm => getArg E vm (fun vm a => pure (pushL vm (intOfU32 a))))
  | .lload => incPc vm (fun vm => getArg E vm lload)
  | .lstore => incPc vm (fun vm => getArg E vm lstore)
  | .lremove => incPc vm (fun vm => getArg E vm lremove)
  | .jump => incPc vm (fun vm => getArg E vm (fun vm a => assertPc { vm with pc := intOfU32 a } pure))
  | .jumpz => incPc vm (fun vm => getArg E vm (fun vm a => jumpIf vm false a))
  | .jumpnz => incPc vm (fun vm => getArg E vm (fun vm a => jumpIf vm true a))

/-- The objects held by the machine. -/
def roots (vm : VM) : Roots where
  gsyms := vm.gsyms
  stks := ((vm.stack :: vm.rest).map List.reverse).reverse
  lsymts := (vm.frames.map (·.syms)).reverse
  vstigs := vm.other.vstigs.map fun e => (e.1, e.2.roots)
  listeners := vm.other.listeners
  bcasts := vm.other.bcasts
  puts := vm.other.puts.map fun m => (m.e.key, m.e.data)
  queries := vm.other.queries.map fun m => (m.e.key, m.e.data)

/-- `buzzheap_gc(vm)`. -/
def collect (vm : VM) : Res VM := do
  let r ← gc vm.heap vm.strings (roots vm)
  pure { vm with heap := r.1, strings := r.2 }

/-- `vm->bcode[vm->pc]`. -/
def fetch (vm : VM) : Res Nat := if vm.pc < 0 then .ub else rd vm.code vm.pc.toNat

/-- `buzzvm_step` (716-993). -/
def step (E : Env) (F : CFuns) (vm : VM) : Res VM :=
  if vm.state ≠ .ready then .ok vm
  else do
    let vm ← collect vm
    let i ← fetch vm
    match opcodes[i]? with
    | some op => exec E F vm op
    | none => pure (setErr vm .instr)

/-- Steps while the machine is ready (`buzzvm_execute_script`, 998-1001), at most `n`. -/
def run (E : Env) (F : CFuns) : Nat → VM → Res VM
  | 0, _ => .hang
  | n + 1, vm => do
    let vm ← step E F vm
    if vm.state = .ready then run E F n vm else pure vm

/-- The loop of `buzzvm_closure_call` (1020-1021). -/
def runAbove (E : Env) (F : CFuns) (base : Nat) : Nat → VM → Res VM
  | 0, _ => .hang
  | n + 1, vm => do
    let vm ← step E F vm
    if vm.state ≠ .ready then pure vm
    else if base < vm.rest.length then runAbove E F base n vm
    else pure vm

/-- The nil inserted below the closure as self (1008-1012).  On a stack without the closure and its arguments the unsigned
position wraps around and the insertion never ends within memory. -/
def insertSelf (vm : VM) (argc : Nat) : Res VM :=
  if vm.stack.length < argc + 1 then .hang
  else
    let o := newobj vm.heap (.atom .nil)
    .ok { vm with heap := o.1, stack := vm.stack.take (argc + 1) ++ o.2 :: vm.stack.drop (argc + 1) }

/-- `buzzvm_closure_call` (1006-1023); `n` bounds the number of steps. -/
def closureCall (E : Env) (F : CFuns) (n : Nat) (argc : Nat) (vm : VM) : Res VM := do
  let vm1 ← insertSelf vm argc
  let vm2 ← call F false (pushInt vm1 (intOfU32 argc))
  runAbove E F vm.rest.length n vm2

/-- `buzzvm_function_call` (1028-1067) of a function by name.  With arguments the code inserts the first bytes of the closure
object instead of its address into the stack (1060-1063), an invalid pointer that is dereferenced next. -/
def functionCall (E : Env) (F : CFuns) (n : Nat) (name : Bytes) (argc : Nat) (vm : VM) : Res VM :=
  let vm := if vm.state = .done then { vm with state := .ready } else vm
  if vm.state ≠ .ready then .ok vm
  else do
    let r ← Strman.register vm.strings name false
    let vm := pushS { vm with strings := r.1 } r.2
    let vm ← gload vm
    let f ← peekCell vm 1
    match f with
    | .clo _ _ _ => if 0 < argc then .ub else closureCall E F n 0 vm
    | _ => pure (setErr vm .type)

/-! ### Loading -/

/-- Two bytes of bytecode as a number. -/
def rd16 (h : Endian) (buf : Bytes) (i : Nat) : Res Nat := do
  let a ← rd buf i
  let b ← rd buf (i + 1)
  match h with
  | .little => pure (a + 256 * b)
  | .big => pure (b + 256 * a)

/-- The C string at a position: undefined without a terminating zero in the buffer. -/
def cstrAt (buf : Bytes) (i : Nat) : Res Bytes :=
  let s := (buf.drop i).takeWhile (· ≠ 0)
  if i + s.length < buf.length then .ok s else .ub

/-- The loop of `buzzvm_set_bcode` over the string table (661-668). -/
def loadStrings (code : Bytes) : Nat → Nat → Strman.SM Bytes → Res (Strman.SM Bytes × Nat)
  | 0, i, sm => .ok (sm, i)
  | c + 1, i, sm =>
    if i < code.length then do
      let s ← cstrAt code i
      let r ← Strman.register sm s true
      loadStrings code c (i + s.length + 1) r.1
    else .ok (sm, i)

/-- `buzzvm_new` (513-580). -/
def new : VM :=
  { code := [], pc := 0, state := .nocode, error := .none, stack := [], rest := [], frames := [], gsyms := [],
    strings := Strman.new, heap := Heap.new, nfuns := 0, swarmstack := [], other := ⟨[], [], [], [], [], ⟨[], [], [], [], [], 10⟩⟩ }

/-- `buzzvm_set_bcode` (653-677) up to the program counter. -/
def load (E : Env) (code : Bytes) (vm : VM) : Res VM := do
  let count ← rd16 E.endian code 0
  let r ← loadStrings code count 2 vm.strings
  pure { vm with strings := r.1, state := .ready, error := .none, code := code, pc := (r.2 : Int) }

/-- The loop of `buzzvm_set_bcode` that registers the function definitions (682-684): it stops at the first `nop`. -/
def boot (E : Env) (F : CFuns) : Nat → VM → Res VM
  | 0, _ => .hang
  | n + 1, vm => do
    let i ← fetch vm
    if i = 0 then step E F vm
    else do
      let vm ← step E F vm
      if vm.state = .ready then boot E F n vm else pure vm

/-- `buzzvm_function_register` (1078-1087).  Simplification: `buzzdarray_find` compares the stored pointers with the first bytes
of the function's code (`funp` is passed instead of `&funp`), taken never to be equal; so the function is always added. -/
def functionRegister (vm : VM) : VM × Nat := ({ vm with nfuns := vm.nfuns + 1 }, vm.nfuns)

end Buzz.VM
