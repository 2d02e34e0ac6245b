import Verif.Syntax

/-
The meaning of programs, independently of the compiler and of the machine: an interpreter of the abstract syntax.

Values are those of `Obj`; tables and functions are locations in a store that only grows.  Strings carry no number (it is 0).  The
meaning of an operator on two values is the one of the machine's instruction (`binV`, `unV`; C12, C37 and C38 say what it is), and so
is the truth of a value.  What the interpreter does not define is `odd`: undefined operations of C (such as overflow), calls with a
wrong number of arguments, tables whose keys are not all integers or all strings, objects of the host, and the constructs for which
the compiler's slots and the machine's do not agree (see C53).
-/
namespace Buzz.Lang

open Buzz.Msg Buzz.VM

/-- What a location holds: a table; a function with its parameters, its body and the variables captured when it was made; or a function
of the host with its number and the values captured. -/
inductive Thing where
  | tab (es : List (Obj × Obj))
  | fn (ps : List Bytes) (body : Ast) (env : List (Bytes × Obj))
  | host (n : Nat) (env : List Obj)

/-- Where the program is: outside functions; outside functions in a block; in a function, whose variables are listed. -/
inductive Scope where
  | top
  | inner
  | fn (env : List (Bytes × Obj))

/-- The state of a program. -/
structure St where
  globals : List (Bytes × Obj)
  store : List Thing
  scope : Scope

/-- The outcome of a phrase: values; a `return`; an error; not defined; out of fuel. -/
inductive Out (α : Type) where
  | ok (a : α) (s : St)
  | ret (v : Obj) (s : St)
  | err (e : Err)
  | odd
  | time

/-- Evaluations. -/
def Ev (α : Type) := St → Out α

instance : Monad Ev where
  pure a := fun s => .ok a s
  bind x f := fun s =>
    match x s with
    | .ok a s => f a s
    | .ret v s => .ret v s
    | .err e => .err e
    | .odd => .odd
    | .time => .time

/-- Functions of the host, by number; they get their local variables: the captured values, the first of which is `self`, and the arguments. -/
abbrev Lib := Nat → List Obj → Ev Obj

/-- The host: the operators' environment, the reading of float constants and the functions that are not of the program. -/
structure Host where
  env : Env
  strtof : Bytes → Option Nat
  lib : Lib

/-- Not defined. -/
def odd {α : Type} : Ev α := fun _ => .odd

/-- No function of the host is defined. -/
def noLib : Lib := fun _ _ => odd

/-- An error. -/
def raise {α : Type} (e : Err) : Ev α := fun _ => .err e

/-- A new location. -/
def alloc (t : Thing) : Ev Nat := fun s => .ok s.store.length { s with store := s.store ++ [t] }

/-- What a location holds. -/
def look (l : Nat) : Ev Thing := fun s =>
  match s.store[l]? with
  | some t => .ok t s
  | none => .odd

/-- Changes what a location holds. -/
def change (l : Nat) (t : Thing) : Ev Unit := fun s => .ok () { s with store := s.store.set l t }

/-- The number written by decimal digits. -/
def digitsVal (t : Bytes) : Option Nat :=
  if t ≠ [] ∧ ∀ c ∈ t, 48 ≤ c.toNat ∧ c.toNat ≤ 57 then some (t.foldl (fun n c => 10 * n + (c.toNat - 48)) 0) else none

/-- The number written by decimal digits with an optional sign. -/
def decimal : Bytes → Option Int
  | 43 :: t => (digitsVal t).map (fun n => (n : Int))
  | 45 :: t => (digitsVal t).map (fun n => -(n : Int))
  | t => (digitsVal t).map (fun n => (n : Int))

/-- The value of a numeric constant: with a dot a float, otherwise an integer of 32 bits. -/
def constVal (H : Host) (t : Bytes) : Option Obj :=
  if 46 ∈ t then (H.strtof t).map (fun w => .flt (ofBits w))
  else (decimal t).map (fun v => .int ((v + 2147483648) % 4294967296 - 2147483648))

/-- A constant. -/
def const (H : Host) (t : Bytes) : Ev Obj :=
  match constVal H t with
  | some v => pure v
  | none => odd

/-- The result of an operation: none is a type error. -/
def result : Option (Res Obj) → Ev Obj
  | none => raise .type
  | some (.ok v) => pure v
  | some _ => odd

/-- A binary operator; the order of tables is not defined. -/
def binary (H : Host) (o : Bin) (x y : Obj) : Ev Obj :=
  match x, y with
  | .tab _, .tab _ => if o ∈ [Bin.lt, .lte, .gt, .gte] then odd else result (binV H.env o x y)
  | _, _ => result (binV H.env o x y)

/-- A unary operator. -/
def unary (o : Un) (x : Obj) : Ev Obj := result (unV o x)

/-- The values of a function's variables. -/
def valueOf (x : Bytes) : List (Bytes × Obj) → Option Obj
  | [] => none
  | e :: es => if e.1 = x then some e.2 else valueOf x es

/-- Assigns a variable of the function. -/
def assignTo (x : Bytes) (v : Obj) (env : List (Bytes × Obj)) : List (Bytes × Obj) := env.map (fun e => if e.1 = x then (x, v) else e)

/-- The value of a global variable. -/
def globalVal (x : Bytes) (s : St) : Obj := (valueOf x s.globals).getD .nil

/-- The value of a name: that of the function's variable, otherwise that of the global variable. -/
def getVar (x : Bytes) : Ev Obj := fun s =>
  match s.scope with
  | .fn env => .ok ((valueOf x env).getD (globalVal x s)) s
  | _ => .ok (globalVal x s) s

/-- Assigns a global variable. -/
def putGlobal (x : Bytes) (v : Obj) : Ev Unit := fun s => .ok () { s with globals := (x, v) :: s.globals.filter (fun e => e.1 ≠ x) }

/-- Assigns a name. -/
def setVar (x : Bytes) (v : Obj) : Ev Unit := fun s =>
  match s.scope with
  | .fn env => if (valueOf x env).isSome then .ok () { s with scope := .fn (assignTo x v env) } else putGlobal x v s
  | _ => putGlobal x v s

/-- No function has more variables than this. -/
def limit : Nat := 2147483647

/-- Declares a variable: global outside functions. -/
def declare (x : Bytes) (v : Obj) : Ev Unit := fun s =>
  match s.scope with
  | .top => putGlobal x v s
  | .inner => .odd
  | .fn env => if (valueOf x env).isSome ∨ limit ≤ env.length + 1 then .odd else .ok () { s with scope := .fn (env ++ [(x, v)]) }

/-- Keys of the same kind, integers or strings. -/
def sameKind : Obj → Obj → Bool
  | .int _, .int _ => true
  | .str _ _, .str _ _ => true
  | _, _ => false

/-- The entry of a table. -/
def entryOf (k : Obj) : List (Obj × Obj) → Option Obj
  | [] => none
  | e :: es => if e.1 = k then some e.2 else entryOf k es

/-- Reads a table. -/
def tabGet (t k : Obj) : Ev Obj :=
  match t with
  | .tab l => do
    match ← look l with
    | .tab es => if sameKind k k && es.all (fun e => sameKind k e.1) then pure ((entryOf k es).getD .nil) else odd
    | _ => odd
  | _ => raise .type

/-- A copy of a function for a table: its `self` is the table. -/
def bindSelf (t : Obj) : Thing → Option Thing
  | .fn ps b (e :: env) => some (.fn ps b ((e.1, t) :: env))
  | .host n (_ :: env) => some (.host n (t :: env))
  | _ => none

/-- Writes a table: nil erases the entry, a function is stored as a copy whose `self` is the table. -/
def tabPut (t k v : Obj) : Ev Unit :=
  match t with
  | .tab l => do
    match ← look l with
    | .tab es =>
      if isKey k then
        if sameKind k k && es.all (fun e => sameKind k e.1) then
          match v with
          | .nil => change l (.tab (es.filter (fun e => e.1 ≠ k)))
          | .clo f => do
            match bindSelf t (← look f) with
            | some c => do
              let f' ← alloc c
              change l (.tab (es.filter (fun e => e.1 ≠ k) ++ [(k, .clo f')]))
            | none => odd
          | _ => change l (.tab (es.filter (fun e => e.1 ≠ k) ++ [(k, v)]))
        else odd
      else raise .type
    | _ => odd
  | _ => raise .type

/-- The name under which a function finds the table it is in. -/
def self : Bytes := [115, 101, 108, 102]

/-- A new function. -/
def newFn (ps : List Bytes) (b : Ast) (env : List (Bytes × Obj)) : Ev Obj := do
  let l ← alloc (.fn ps b env)
  pure (.clo l)

/-- A function is made: it captures the variables of the function it is in. -/
def closure (ps : List Bytes) (b : Ast) : Ev Obj := fun s =>
  match s.scope with
  | .inner => .odd
  | .top => if (self :: ps).Nodup then newFn ps b [(self, .nil)] s else .odd
  | .fn env => if (env.map (·.1) ++ ps).Nodup then newFn ps b env s else .odd

/-- The body of a function runs with its own variables; without `return` the value is nil. -/
def inFunction (env : List (Bytes × Obj)) (x : Ev (List Obj)) : Ev Obj := fun s =>
  match x { s with scope := .fn env } with
  | .ok _ s' => .ok .nil { s' with scope := s.scope }
  | .ret v s' => .ok v { s' with scope := s.scope }
  | .err e => .err e
  | .odd => .odd
  | .time => .time

/-- A function of the host runs outside the scope of its caller, and ends with a value or an error. -/
def inHost (x : Ev Obj) : Ev Obj := fun s =>
  match x { s with scope := .top } with
  | .ok v s' => .ok v { s' with scope := s.scope }
  | .err e => .err e
  | _ => .odd

/-- Calls a function: its variables are the captured ones and the parameters. -/
def apply (lib : Lib) (run : Ast → Ev (List Obj)) (c : Obj) (vs : List Obj) : Ev Obj :=
  if limit ≤ vs.length then odd
  else
    match c with
    | .clo l => do
      match ← look l with
      | .fn ps b env => if vs.length = ps.length ∧ env.length + ps.length < limit then inFunction (env ++ ps.zip vs) (run b) else odd
      | .host n env => inHost (lib n (env ++ vs))
      | _ => odd
    | _ => raise .type

/-- Repeats `b` as long as `c` is true. -/
def loop (c : Ev Obj) (b : Ev Unit) : Nat → Ev (List Obj)
  | 0 => fun _ => .time
  | n + 1 => do
    let v ← c
    if truth v then do
      b
      loop c b n
    else pure []

/-- The names a phrase declares in the scope it is in. -/
def decls : Ast → List Bytes
  | .decl x => [x]
  | .init x e => x :: decls e
  | .bin _ a b => decls a ++ decls b
  | .un _ a => decls a
  | .tset t _ e => decls t ++ decls e
  | .field r _ => decls r
  | .index r e => decls r ++ decls e
  | .call f as => decls f ++ decls as
  | .arg as a => decls as ++ decls a
  | .assign r e => decls r ++ decls e
  | .run r => decls r
  | .ifs c a => decls c ++ decls a
  | .ite c a b => decls c ++ decls a ++ decls b
  | .while_ c a => decls c ++ decls a
  | .for_ i c u a => decls i ++ decls c ++ decls u ++ decls a
  | .ret e => decls e
  | .seq s l => decls s ++ decls l
  | _ => []

/-- An expression declares nothing and has one value. -/
def one (a : Ast) (x : Ev (List Obj)) : Ev Obj :=
  if decls a = [] then do
    match ← x with
    | [v] => pure v
    | _ => odd
  else odd

/-- A statement has no value. -/
def noValue (x : Ev (List Obj)) : Ev Unit := do
  match ← x with
  | [] => pure ()
  | _ => odd

/-- A statement whose execution depends on a condition must not declare variables (`ds`), unless they are global. -/
def guarded (ds : List Bytes) (x : Ev (List Obj)) : Ev (List Obj) := fun s =>
  match s.scope with
  | .top => x s
  | _ => if ds = [] then x s else .odd

/-- A block: its variables are dropped at the end. -/
def inBlock (x : Ev Unit) : Ev Unit := fun s =>
  match s.scope with
  | .top =>
    match x { s with scope := .inner } with
    | .ok _ s' => .ok () { s' with scope := .top }
    | r => r
  | .inner => x s
  | .fn env =>
    match x s with
    | .ok _ s' =>
      match s'.scope with
      | .fn env' => .ok () { s' with scope := .fn (env'.take env.length) }
      | _ => .odd
    | r => r

/-- `return`. -/
def leave (v : Obj) : Ev (List Obj) := fun s =>
  match s.scope with
  | .fn _ => .ret v s
  | _ => .odd

/-- A key of a table literal. -/
def keyVal (H : Host) : Key → Ev Obj
  | .name s => pure (.str 0 s)
  | .num t => const H t

/-- What can be assigned to. -/
def isRef : Ast → Bool
  | .id _ => true
  | .field _ _ => true
  | .index _ _ => true
  | _ => false

/-- What can be called. -/
def isCallee : Ast → Bool
  | .call _ _ => true
  | r => isRef r

/-- Lists of arguments. -/
def isArgs : Ast → Bool
  | .noArg => true
  | .arg as _ => isArgs as
  | _ => false

/-- Assigns to the reference `r`, whose place is `p`. -/
def store (r : Ast) (p : List Obj) (v : Obj) : Ev Unit :=
  match r, p with
  | .id x, _ => setVar x v
  | .field _ _, [t, k] => tabPut t k v
  | .index _ _, [t, k] => tabPut t k v
  | _, _ => odd

/-- The values of a phrase: one for an expression, one per argument for a list of arguments, none for a statement.  `n` bounds the
number of rounds of every loop, `run` evaluates function bodies.  With `place`, a reference is not read: its values are the table and the
key of an entry, none for a variable. -/
def eval (H : Host) (n : Nat) (run : Ast → Ev (List Obj)) : Ast → (place : Bool) → Ev (List Obj)
  | .nil, _ => pure [.nil]
  | .num t, _ => do
    let v ← const H t
    pure [v]
  | .str s, _ => pure [.str 0 s]
  | .bin o a b, _ => do
    let x ← one a (eval H n run a false)
    let y ← one b (eval H n run b false)
    let v ← binary H o x y
    pure [v]
  | .un o a, _ => do
    let x ← one a (eval H n run a false)
    let v ← unary o x
    pure [v]
  | .lam ps b, _ => do
    let v ← closure ps b
    pure [v]
  | .tnew, _ => do
    let l ← alloc (.tab [])
    pure [.tab l]
  | .tset t k e, _ => do
    let x ← one t (eval H n run t false)
    let k ← keyVal H k
    let v ← one e (eval H n run e false)
    tabPut x k v
    pure [x]
  | .id x, place =>
    if place then pure []
    else do
      let v ← getVar x
      pure [v]
  | .field r s, place => do
    let t ← one r (eval H n run r false)
    if place then pure [t, .str 0 s]
    else do
      let v ← tabGet t (.str 0 s)
      pure [v]
  | .index r e, place => do
    let t ← one r (eval H n run r false)
    let k ← one e (eval H n run e false)
    if place then pure [t, k]
    else do
      let v ← tabGet t k
      pure [v]
  | .call f as, _ =>
    if isCallee f && isArgs as then do
      let c ← one f (eval H n run f false)
      let vs ← eval H n run as false
      let v ← apply H.lib run c vs
      pure [v]
    else odd
  | .noArg, _ => pure []
  | .arg as a, _ => do
    let vs ← eval H n run as false
    let v ← one a (eval H n run a false)
    pure (vs ++ [v])
  | .decl x, _ => do
    declare x .nil
    pure []
  | .init x e, _ => fun s =>
    match s.scope with
    | .top => (do
      let v ← one e (eval H n run e false)
      setVar x v
      pure []) s
    | _ => (do
      declare x .nil
      let v ← one e (eval H n run e false)
      setVar x v
      pure []) s
  | .assign r e, _ =>
    if isRef r then do
      let p ← eval H n run r true
      let v ← one e (eval H n run e false)
      store r p v
      pure []
    else odd
  | .run r, _ => do
    let _ ← one r (eval H n run r false)
    pure []
  | .func _ _ _, _ => pure []
  | .ifs c a, _ => do
    let v ← one c (eval H n run c false)
    guarded (decls a) (if truth v then eval H n run a false else pure [])
  | .ite c a b, _ => do
    let v ← one c (eval H n run c false)
    guarded (decls a ++ decls b) (if truth v then eval H n run a false else eval H n run b false)
  | .while_ c a, _ => guarded (decls c ++ decls a) (loop (one c (eval H n run c false)) (noValue (eval H n run a false)) n)
  | .for_ i c u a, _ => do
    noValue (eval H n run i false)
    guarded (decls c ++ decls u ++ decls a) (loop (one c (eval H n run c false)) (do noValue (eval H n run a false); noValue (eval H n run u false)) n)
  | .ret0, _ => leave .nil
  | .ret e, _ => do
    let v ← one e (eval H n run e false)
    leave v
  | .block b, _ => do
    inBlock (noValue (eval H n run b false))
    pure []
  | .skip, _ => pure []
  | .seq s l, _ => do
    noValue (eval H n run s false)
    eval H n run l false

/-- Evaluation with at most `n` rounds per loop and `n` nested calls. -/
def exec (H : Host) : Nat → Ast → Ev (List Obj)
  | 0 => fun a => eval H 0 (fun _ _ => .time) a false
  | n + 1 => fun a => eval H (n + 1) (exec H n) a false

/-- The function definitions of a program, in order: they are known from the start. -/
def functions : Ast → List (Bytes × List Bytes × Ast)
  | .func f ps b => [(f, ps, b)]
  | .ifs _ a => functions a
  | .ite _ a b => functions a ++ functions b
  | .while_ _ a => functions a
  | .for_ _ _ _ a => functions a
  | .seq s l => functions s ++ functions l
  | _ => []

/-- Defines functions. -/
def define : List (Bytes × List Bytes × Ast) → Ev Unit
  | [] => pure ()
  | (f, ps, b) :: fs => do
    let c ← closure ps b
    putGlobal f c
    define fs

/-- The state before a program: only its functions are defined. -/
def initial (b : Ast) : Out Unit := define (functions b) ⟨[], [], .top⟩

end Buzz.Lang
