import Verif.Parser
import Verif.Syntax

/-
What the compiler emits for a piece of syntax: the single pass of buzzparser.c as a function of the syntax instead of the tokens.
Nothing here is part of the model; `Verif/CompProof.lean` shows that the model of the compiler does this.
-/
namespace Buzz.Comp

open Buzz.Msg Buzz.Lex Buzz.VM Buzz.Parser Buzz.Lang

/-- The part of the compiler's state that decides what is emitted. -/
structure CS where
  labels : Nat
  symstack : List Syms
  strings : List (Bytes × Nat)

/-- A chunk without debug information. -/
structure EC where
  label : Nat
  code : List Ln
  sym : Option (Bytes × Nat)

/-- The outcome: code for the current chunk, new chunks, state. -/
structure Out where
  code : List Ln
  news : List EC
  cs : CS

/-- A compilation; `none` is a rejected program. -/
abbrev C := CS → Option Out

/-- One after the other. -/
def seqO (x y : C) : C := fun cs =>
  match x cs with
  | none => none
  | some a =>
    match y a.cs with
    | none => none
    | some b => some ⟨a.code ++ b.code, a.news ++ b.news, b.cs⟩

infixl:60 " ⊹ " => seqO

/-- Only code. -/
def put (l : List Ln) : C := fun cs => some ⟨l, [], cs⟩

/-- The top symbol table. -/
def CS.top (cs : CS) : Syms := cs.symstack.headD []

/-- A string and its number. -/
def withStr (s : Bytes) (k : Nat → List Ln) : C := fun cs =>
  some ⟨k (stringAdd cs.strings s).2, [], { cs with strings := (stringAdd cs.strings s).1 }⟩

/-- The state with a global symbol added. -/
def addGlobal (x : Bytes) (cs : CS) : CS :=
  { cs with strings := (stringAdd cs.strings x).1, symstack := onBase (setGlobal x (stringAdd cs.strings x).2) cs.symstack }

/-- The state with a local symbol added. -/
def addLocal (x : Bytes) (cs : CS) : CS := { cs with symstack := onTop (fun t => FMap.set t x ⟨t.length, false, 0⟩) cs.symstack }

/-- The state with an unknown name made global. -/
def known (x : Bytes) (cs : CS) : CS := if lookup x cs.symstack = none then addGlobal x cs else cs

/-- The symbol of a name. -/
def symOf (x : Bytes) (cs : CS) : Sym := (lookup x (known x cs).symstack).getD ⟨0, true, 0⟩

/-- Whether the name is a local symbol. -/
def isLocal (x : Bytes) (cs : CS) : Bool :=
  match lookup x cs.symstack with
  | some s => !s.global
  | none => false

/-- Loading what has been referred to. -/
def loadOps (info : Int) (glob call : Bool) : List Ln :=
  if glob then (if call then [.op 2] else []) ++ [.num 37 info, .op 28]
  else if 0 ≤ info then (if call then [.op 2] else []) ++ [.num 41 info]
  else if info = -3 then [.op 32]
  else if info = -2 then [.op 33]
  else []

/-- How a reference is used: its value; its value to be called; to be assigned to. -/
inductive Mode where
  | val | callee | lval
  deriving DecidableEq

/-- The opcode of an operator. -/
def binOp : Bin → Nat
  | .add => 7 | .sub => 8 | .mul => 9 | .div => 10 | .mod => 11 | .pow => 12 | .land => 14 | .lor => 15 | .band => 17 | .bor => 18
  | .shl => 20 | .shr => 21 | .eq => 22 | .neq => 23 | .gt => 24 | .gte => 25 | .lt => 26 | .lte => 27

def unOp : Un → Nat
  | .unm => 13 | .lnot => 16 | .bnot => 19

/-- The number of arguments. -/
def nargs : Ast → Nat
  | .arg as _ => nargs as + 1
  | _ => 0

/-- The key of an entry. -/
def keyC : Key → C
  | .name s => withStr s (fun i => [.num 37 i])
  | .num t => put [constant [] t]

/-- A parameter. -/
def addParam (cs : CS) (x : Bytes) : CS := if isLocal x cs then cs else addLocal x cs

/-- The scope of a new function: its own table below the base table, or a copy of the current one. -/
def scope (cs : CS) : CS :=
  if cs.symstack.length = 1 then addParam { cs with symstack := [] :: cs.symstack } selfName
  else { cs with symstack := cs.symstack.headD [] :: cs.symstack }

/-- A block in a scope that is dropped at its end. -/
def bodyC (x : C) : C := fun cs =>
  match x cs with
  | none => none
  | some o =>
    some ⟨o.code ++ (if o.cs.top.length - cs.top.length ≠ 0 then [.num 43 ((o.cs.top.length - cs.top.length : Nat) : Int)] else []), o.news,
      { o.cs with symstack := o.cs.symstack.tail }⟩

/-- A new chunk for a function body. -/
def chunkC (sym : Option (Bytes × Nat)) (enter : CS → CS) (x : C) : C := fun cs =>
  match bodyC x (enter { cs with labels := cs.labels + 1 }) with
  | none => none
  | some o => some ⟨[], ⟨cs.labels, o.code ++ [.op 5], sym⟩ :: o.news, o.cs⟩

/-- Where an assignment ends. -/
def storeOp (r : Ast) (cs : CS) : List Ln :=
  match r with
  | .id x => if (symOf x cs).global then [.op 29] else [.num 42 (symOf x cs).pos]
  | _ => [.op 31]

/-- `n` labels from the current one on. -/
def withLabels (n : Nat) (k : Nat → C) : C := fun cs => k cs.labels { cs with labels := cs.labels + n }

/-- The code of a piece of syntax. -/
def comp : Ast → Mode → C
  | .nil, _ => put [.op 2]
  | .num t, _ => put [constant [] t]
  | .str s, _ => withStr s (fun i => [.num 37 i])
  | .bin o a b, _ => comp a .val ⊹ comp b .val ⊹ put [.op (binOp o)]
  | .un o a, _ => comp a .val ⊹ put [.op (unOp o)]
  | .lam ps b, _ => fun cs => (put [.ref 40 cs.labels] ⊹ chunkC none (fun cs => ps.foldl addParam (scope cs)) (comp b .val)) cs
  | .tnew, _ => put [.op 30]
  | .tset t k v, _ => comp t .val ⊹ put [.op 3] ⊹ keyC k ⊹ comp v .val ⊹ put [.op 31]
  | .id x, m => fun cs =>
    some ⟨match m with
      | .val => loadOps (symOf x cs).pos (symOf x cs).global false
      | .callee => loadOps (symOf x cs).pos (symOf x cs).global true
      | .lval => if (symOf x cs).global then [.num 37 (symOf x cs).pos] else [], [], known x cs⟩
  | .field r s, m => comp r .val ⊹ withStr s (fun i => (if m = .callee then [.op 3] else []) ++ [.num 37 i]) ⊹ put (if m = .lval then [] else [.op 32])
  | .index r e, m => comp r .val ⊹ put (if m = .callee then [.op 3] else []) ⊹ comp e .val ⊹ put (if m = .lval then [] else [.op 32])
  | .call r as, m => put (if m = .callee then [.op 2] else []) ⊹ comp r .callee ⊹ comp as .val ⊹ put [.num 36 (nargs as), .op 33]
  | .noArg, _ => put []
  | .arg as a, _ => comp as .val ⊹ comp a .val
  | .decl x, _ => fun cs =>
    if isLocal x cs then none
    else if cs.symstack.length = 1 then some ⟨[.num 37 (stringAdd cs.strings x).2, .op 2, .op 29], [], addGlobal x cs⟩
    else some ⟨[.op 2, .num 42 cs.top.length], [], addLocal x cs⟩
  | .init x e, _ => fun cs =>
    if isLocal x cs then none
    else if cs.symstack.length = 1 then
      (put [.num 37 (stringAdd cs.strings x).2] ⊹ comp e .val ⊹ put [.op 29]) (addGlobal x cs)
    else (put [.op 2, .num 42 cs.top.length] ⊹ comp e .val ⊹ put [.num 42 cs.top.length]) (addLocal x cs)
  | .assign r e, _ => fun cs => (comp r .lval ⊹ comp e .val ⊹ put (storeOp r cs)) cs
  | .run r, _ => comp r .val ⊹ put [.op 4]
  | .func f ps b, _ => fun cs =>
    if cs.symstack.length > 1 then none
    else chunkC (some (f, (symOf f cs).gen)) (fun cs => ps.foldl addParam (scope cs)) (comp b .val) (known f cs)
  | .ifs c a, _ => withLabels 2 fun l => comp c .val ⊹ put [.ref 45 l] ⊹ comp a .val ⊹ put [.lab l]
  | .ite c a b, _ => withLabels 2 fun l =>
    comp c .val ⊹ put [.ref 45 l] ⊹ comp a .val ⊹ put [.ref 44 (l + 1), .lab l] ⊹ comp b .val ⊹ put [.lab (l + 1)]
  | .while_ c a, _ => withLabels 2 fun l =>
    put [.lab l] ⊹ comp c .val ⊹ put [.ref 45 (l + 1)] ⊹ comp a .val ⊹ put [.ref 44 l, .lab (l + 1)]
  | .for_ i c u a, _ => withLabels 4 fun l =>
    comp i .val ⊹ put [.lab l] ⊹ comp c .val ⊹ put [.ref 46 (l + 2), .ref 44 (l + 3), .lab (l + 1)] ⊹ comp u .val ⊹ put [.ref 44 l, .lab (l + 2)] ⊹
      comp a .val ⊹ put [.ref 44 (l + 1), .lab (l + 3)]
  | .ret0, _ => put [.op 5]
  | .ret e, _ => comp e .val ⊹ put [.op 6]
  | .block b, _ => fun cs =>
    bodyC (comp b .val) { cs with symstack := (if cs.symstack.length = 1 then [] else cs.symstack.headD []) :: cs.symstack }
  | .skip, _ => put []
  | .seq s l, _ => comp s .val ⊹ comp l .val

end Buzz.Comp
