import Verif.Sem
import Verif.TypeLib

/-
The meaning of the functions that every program finds when it starts: the global functions of src/buzz/buzztype.c, the tables `string` and
`math`, and the functions `get` and `count` of the table `neighbors`.

The functions of the C library (`round`, `strtol`, printing of numbers) are those of the machine's model.
-/
namespace Buzz.Lang

open Buzz.F32 Buzz.Msg Buzz.VM Buzz.MathLib

/-- What a function of the library makes of its arguments: a value, an error, or nothing that is defined. -/
inductive Ans where
  | val (v : Obj)
  | err (e : Err)
  | odd

/-- A function of one argument. -/
def fun1 (f : Obj → Ans) : List Obj → Ans
  | [v] => f v
  | _ => .err .lnum

/-- An integer, if it has 32 bits. -/
def intAns (v : Int) : Ans := if -2147483648 ≤ v ∧ v ≤ 2147483647 then .val (.int v) else .odd

/-- Texts whose length is an integer of the language. -/
def short (s : Bytes) : Bool := s.length < 2147483648

/-- `type(v)`: the name of the type. -/
def libType : Obj → Ans
  | .nil => .val (.str 0 (ascii "nil"))
  | .int _ => .val (.str 0 (ascii "integer"))
  | .flt _ => .val (.str 0 (ascii "float"))
  | .str _ _ => .val (.str 0 (ascii "string"))
  | .tab _ => .val (.str 0 (ascii "table"))
  | .clo _ => .val (.str 0 (ascii "closure"))
  | .user _ => .val (.str 0 (ascii "userdata"))

/-- `int(v)`: the integer part of a float; an integer is an error. -/
def libInt : Obj → Ans
  | .flt (.fin q) => intAns (if 0 ≤ q then ⌊q⌋ else ⌈q⌉)
  | .flt _ => .odd
  | _ => .err .type

/-- `float(v)`: the float nearest to an integer; a float is an error. -/
def libFloat : Obj → Ans
  | .int v => .val (.flt (toFlt v))
  | _ => .err .type

/-- `isnil(v)`, `isint(v)`, …: whether the value is of the type. -/
def libIs (p : Obj → Bool) (v : Obj) : Ans := .val (.int (if p v then 1 else 0))

/-- The types. -/
def isNil : Obj → Bool
  | .nil => true
  | _ => false
def isInt : Obj → Bool
  | .int _ => true
  | _ => false
def isFlt : Obj → Bool
  | .flt _ => true
  | _ => false
def isStr : Obj → Bool
  | .str _ _ => true
  | _ => false
def isTab : Obj → Bool
  | .tab _ => true
  | _ => false
def isClo : Obj → Bool
  | .clo _ => true
  | _ => false
def isUser : Obj → Bool
  | .user _ => true
  | _ => false

/-- `size(t)`: the number of entries of a table. -/
def libSize : Obj → Ev Obj
  | .tab l => do
    match ← look l with
    | .tab es => if es.length < 2147483648 then pure (.int es.length) else odd
    | _ => odd
  | _ => raise .type

/-- `string.length(s)`. -/
def strLen : Obj → Ans
  | .str _ s => if short s then .val (.int s.length) else .odd
  | _ => .err .type

/-- The characters of `s` from number `n` on, before number `m`. -/
def slice (s : Bytes) (n m : Int) : Ans := if n < 0 then .odd else .val (.str 0 ((s.take m.toNat).drop n.toNat))

/-- `string.sub(s, n)` and `string.sub(s, n, m)`: nil if `n` is not before the end or `m` is before `n`. -/
def strSub : List Obj → Ans
  | [s, n] =>
    match s with
    | .str _ s =>
      if short s then
        match n with
        | .int n => if n ≥ s.length then .val .nil else slice s n s.length
        | _ => .err .type
      else .odd
    | _ => .err .type
  | [s, n, m] =>
    match s with
    | .str _ s =>
      if short s then
        match n with
        | .int n =>
          if n ≥ s.length then .val .nil
          else
            match m with
            | .int m => if m < n then .val .nil else slice s n m
            | _ => .err .type
        | _ => .err .type
      else .odd
    | _ => .err .type
  | _ => .err .lnum

/-- The texts, if all values are strings. -/
def texts : List Obj → Option (List Bytes)
  | [] => some []
  | .str _ s :: vs => (texts vs).map (s :: ·)
  | _ :: _ => none

/-- `string.concat(s, t, …)`. -/
def strConcat (vs : List Obj) : Ans :=
  if vs.length < 2 then .err .lnum
  else
    match texts vs with
    | some ss => if short ss.flatten then .val (.str 0 ss.flatten) else .odd
    | none => .err .type

/-- `string.tostring(v)` of a number. -/
def strOf : Obj → Ans
  | .int v => .val (.str 0 (Obj.fmtD v))
  | .flt f => .val (.str 0 (Obj.fmtF f))
  | _ => .odd

/-- `string.toint(s)`: nil if the text begins with no number; numbers that do not have 32 bits are not defined here. -/
def strInt : Obj → Ans
  | .str _ s =>
    match strtol s with
    | none => .val .nil
    | some v => intAns v
  | _ => .err .type

/-- `math.abs(v)`. -/
def mAbs : Obj → Ans
  | .int v => intAns |v|
  | .flt f => .val (.flt (absF f))
  | _ => .err .type

/-- `math.floor(v)`, `math.ceil(v)`, `math.round(v)`. -/
def mRound (f : ℚ → Int) : Obj → Ans
  | .int v => .val (.int v)
  | .flt (.fin q) => intAns (f q)
  | .flt _ => .odd
  | _ => .err .type

/-- The order of two numbers. -/
def below : Obj → Obj → Option Bool
  | .int a, .int b => some (a < b)
  | .int a, .flt b => some (Obj.ltF (toFlt a) b)
  | .flt a, .int b => some (Obj.ltF a (toFlt b))
  | .flt a, .flt b => some (Obj.ltF a b)
  | _, _ => none

/-- `math.min(x, y)` of two numbers. -/
def mMin : List Obj → Ans
  | [x, y] =>
    match below x y, below y x with
    | some _, some true => .val y
    | some _, some false => .val x
    | _, _ => .odd
  | _ => .err .lnum

/-- `math.max(x, y)` of two numbers. -/
def mMax : List Obj → Ans
  | [x, y] =>
    match below x y with
    | some true => .val y
    | some false => .val x
    | none => .odd
  | _ => .err .lnum

/-- The meaning of a function that does not look at the state. -/
def Ans.ev : Ans → Ev Obj
  | .val v => pure v
  | .err e => raise e
  | .odd => Lang.odd

/-- The names of the functions of the host, in the order in which they are registered, with the table they are in. -/
def libNames : List (String × String) :=
  ["get", "filter", "kin", "nonkin", "foreach", "map", "reduce", "count", "broadcast", "listen", "ignore"].map (("neighbors", ·)) ++
  ["type", "int", "float", "clone", "size", "foreach", "map", "reduce", "filter", "isnil", "isint", "isfloat", "isstring", "istable", "isclosure", "isuserdata"].map (("", ·)) ++
  [("stigmergy", "create")] ++
  ["create", "union", "intersection", "difference", "id"].map (("swarm", ·)) ++
  ["abs", "floor", "ceil", "round", "log", "log2", "log10", "exp", "sqrt", "sin", "cos", "tan", "asin", "acos", "atan", "min", "max"].map (("math", ·)) ++
  ["setseed", "uniform", "gaussian", "exponential"].map (("math.rng", ·)) ++
  ["fopen", "fclose", "fsize", "fforeach", "fwrite"].map (("io", ·)) ++
  ["length", "sub", "concat", "tostring", "toint", "tofloat"].map (("string", ·))

/-- The functions of the library by name; the others are not defined. -/
def libByName : String × String → List Obj → Ev Obj
  | ("", "type"), as => (fun1 libType as).ev
  | ("", "int"), as => (fun1 libInt as).ev
  | ("", "float"), as => (fun1 libFloat as).ev
  | ("", "size"), [v] => libSize v
  | ("", "size"), _ => raise .lnum
  | ("", "isnil"), as => (fun1 (libIs isNil) as).ev
  | ("", "isint"), as => (fun1 (libIs isInt) as).ev
  | ("", "isfloat"), as => (fun1 (libIs isFlt) as).ev
  | ("", "isstring"), as => (fun1 (libIs isStr) as).ev
  | ("", "istable"), as => (fun1 (libIs isTab) as).ev
  | ("", "isclosure"), as => (fun1 (libIs isClo) as).ev
  | ("", "isuserdata"), as => (fun1 (libIs isUser) as).ev
  | ("math", "abs"), as => (fun1 mAbs as).ev
  | ("math", "floor"), as => (fun1 (mRound Int.floor) as).ev
  | ("math", "ceil"), as => (fun1 (mRound Int.ceil) as).ev
  | ("math", "round"), as => (fun1 (mRound roundAway) as).ev
  | ("math", "min"), as => (mMin as).ev
  | ("math", "max"), as => (mMax as).ev
  | ("string", "length"), as => (fun1 strLen as).ev
  | ("string", "sub"), as => (strSub as).ev
  | ("string", "concat"), as => (strConcat as).ev
  | ("string", "tostring"), as => (fun1 strOf as).ev
  | ("string", "toint"), as => (fun1 strInt as).ev
  | _, _ => odd

/-- `neighbors.get(id)`: the entry of the robot `id`, nil if there is no data. -/
def nbrGet (self : Obj) : List Obj → Ev Obj
  | [v] => do
    match ← tabGet self (.str 0 (ascii "poses")) with
    | .nil => pure .nil
    | p => tabGet p v
  | _ => raise .lnum

/-- `neighbors.count()`: the number of neighbors, 0 if there is no data. -/
def nbrCount (self : Obj) : List Obj → Ev Obj
  | [] =>
    match self with
    | .tab l => do
      match ← tabGet (.tab l) (.str 0 (ascii "poses")) with
      | .nil => pure (.int 0)
      | .tab m => libSize (.tab m)
      | _ => odd
    | _ => odd
  | _ => raise .lnum

/-- The functions that look at their table, and the others. -/
def libWithSelf : String × String → Obj → List Obj → Ev Obj
  | ("neighbors", "get"), self, as => nbrGet self as
  | ("neighbors", "count"), self, as => nbrCount self as
  | name, _, as => libByName name as

/-- The functions of the host by number; the first variable is `self`. -/
def stdLib : Lib := fun n vs =>
  match libNames[n]? with
  | some name => libWithSelf name (vs.headD .nil) vs.tail
  | none => odd

example : libNames.length = 65 ∧ libNames[59]? = some ("string", "length") := by decide +kernel

end Buzz.Lang
