import Verif.Lex
import Verif.VM

/-
The language, independently of the compiler: abstract syntax and the grammar that relates it to tokens.

Tokens are given by type and text; statement ends (newlines and semicolons) do not occur: the grammar ignores them.
-/
namespace Buzz.Lang

open Buzz.Msg Buzz.Lex Buzz.VM

/-- The key of an entry in a table literal. -/
inductive Key where
  | name (s : Bytes)
  | num (t : Bytes)
  deriving DecidableEq

/-- Expressions, argument lists, statements and statement lists. -/
inductive Ast where
  /-- `nil` -/
  | nil
  /-- a number: its text, with its sign -/
  | num (t : Bytes)
  /-- a string -/
  | str (s : Bytes)
  | bin (o : Bin) (a b : Ast)
  | un (o : Un) (a : Ast)
  /-- `function(ps) { body }` -/
  | lam (ps : List Bytes) (body : Ast)
  /-- `{}` -/
  | tnew
  /-- a table literal with one more entry -/
  | tset (t : Ast) (k : Key) (v : Ast)
  /-- a variable -/
  | id (x : Bytes)
  /-- `r.s` -/
  | field (r : Ast) (s : Bytes)
  /-- `r[e]` -/
  | index (r e : Ast)
  /-- `r(args)` -/
  | call (r args : Ast)
  /-- no arguments -/
  | noArg
  /-- one more argument -/
  | arg (args a : Ast)
  /-- `var x` -/
  | decl (x : Bytes)
  /-- `var x = e` -/
  | init (x : Bytes) (e : Ast)
  /-- `r = e` -/
  | assign (r e : Ast)
  /-- a call as a statement -/
  | run (r : Ast)
  /-- `function f(ps) { body }` -/
  | func (f : Bytes) (ps : List Bytes) (body : Ast)
  | ifs (c a : Ast)
  | ite (c a b : Ast)
  /-- `while(c) a` -/
  | while_ (c a : Ast)
  /-- `for(i, c, u) a` -/
  | for_ (i c u a : Ast)
  | ret0
  | ret (e : Ast)
  /-- `{ b }` -/
  | block (b : Ast)
  /-- the empty statement list -/
  | skip
  | seq (s l : Ast)

/-- Grammatical categories.  The flag says whether the phrase ends in an operand with a sign before it: such an operand extends as far as
a power does. -/
inductive Cat where
  | cond | logic | cmp | expr | sum | prod | modu | pow | shift (e : Bool) | andor (e : Bool) | bnot (e : Bool) | opnd (e : Bool)
  | ref | args | table
  | simple | stat | sub | stats | blk
  deriving DecidableEq

/-- A token: type and text. -/
abbrev T2 := TT × Bytes

/-- A statement that must be followed by a closing brace: it ends in a `return` without value or in an empty statement. -/
def bare : Ast → Bool
  | .ret0 => true
  | .skip => true
  | .ifs _ a => bare a
  | .ite _ _ b => bare b
  | .while_ _ a => bare a
  | .for_ _ _ _ a => bare a
  | _ => false

/-- A statement that would take an `else` following it. -/
def openIf : Ast → Bool
  | .ifs _ _ => true
  | .ite _ _ b => openIf b
  | .while_ _ a => openIf a
  | .for_ _ _ _ a => openIf a
  | _ => false

/-- The texts of the operators. -/
inductive BinTok : Cat → T2 → Bin → Prop where
  | land : BinTok .logic (.landor, [97, 110, 100]) .land
  | lor : BinTok .logic (.landor, [111, 114]) .lor
  | eq : BinTok .cmp (.cmp, [61, 61]) .eq
  | neq : BinTok .cmp (.cmp, [33, 61]) .neq
  | lt : BinTok .cmp (.cmp, [60]) .lt
  | lte : BinTok .cmp (.cmp, [60, 61]) .lte
  | gt : BinTok .cmp (.cmp, [62]) .gt
  | gte : BinTok .cmp (.cmp, [62, 61]) .gte
  | add : BinTok .sum (.addsub, [43]) .add
  | sub : BinTok .sum (.addsub, [45]) .sub
  | mul : BinTok .prod (.muldiv, [42]) .mul
  | div : BinTok .prod (.muldiv, [47]) .div
  | mod : BinTok .modu (.mod, [37]) .mod
  | pow : BinTok .pow (.pow, [94]) .pow
  | shl : BinTok (.shift false) (.lrshift, [60, 60]) .shl
  | shr : BinTok (.shift false) (.lrshift, [62, 62]) .shr
  | band : BinTok (.andor false) (.bandor, [38]) .band
  | bor : BinTok (.andor false) (.bandor, [124]) .bor

/-- The key of an entry. -/
inductive KeyTok : T2 → Key → Prop where
  | name {s : Bytes} : KeyTok (.id, s) (.name s)
  | num {t : Bytes} : KeyTok (.const, t) (.num t)

/-- Parameter lists. -/
inductive Ids : List T2 → List Bytes → Prop where
  | nil : Ids [] []
  | one {x : Bytes} : Ids [(.id, x)] [x]
  | more {x v : Bytes} {ts : List T2} {xs : List Bytes} : Ids ts xs → xs ≠ [] → Ids ((.id, x) :: (.listsep, v) :: ts) (x :: xs)

/-- The grammar.  Precedence from loose to tight: `and` and `or` (alike), comparisons, `+ -`, `* /`, `%`, `^`, shifts, `& |`, `!`.
All binary operators group to the left except `^` (to the right) and comparisons (not at all).  `not` applies to everything up to the
end of the condition. -/
inductive Syn : Cat → List T2 → Ast → Prop where
  | not {v : Bytes} {ts : List T2} {a : Ast} : Syn .cond ts a → Syn .cond ((.lnot, v) :: ts) (.un .lnot a)
  | cond {ts : List T2} {a : Ast} : Syn .logic ts a → Syn .cond ts a
  | logic1 {ts : List T2} {a : Ast} : Syn .cmp ts a → Syn .logic ts a
  | logic {ts us : List T2} {t : T2} {o : Bin} {a b : Ast} : Syn .logic ts a → BinTok .logic t o → Syn .cmp us b →
      Syn .logic (ts ++ t :: us) (.bin o a b)
  | cmp1 {ts : List T2} {a : Ast} : Syn .expr ts a → Syn .cmp ts a
  | cmp {ts us : List T2} {t : T2} {o : Bin} {a b : Ast} : Syn .expr ts a → BinTok .cmp t o → Syn .expr us b →
      Syn .cmp (ts ++ t :: us) (.bin o a b)
  | tab0 {v w : Bytes} : Syn .expr [(.blockopen, v), (.blockclose, w)] .tnew
  | tab {v w : Bytes} {ts : List T2} {a : Ast} : Syn .table ts a → Syn .expr ((.blockopen, v) :: (ts ++ [(.blockclose, w)])) a
  | entry1 {v w : Bytes} {t : T2} {k : Key} {ts : List T2} {a : Ast} : KeyTok t k → Syn .expr ts a →
      Syn .table ((.dot, v) :: t :: (.assign, w) :: ts) (.tset .tnew k a)
  | entry {u v w : Bytes} {t : T2} {k : Key} {us ts : List T2} {b a : Ast} : Syn .table us b → KeyTok t k → Syn .expr ts a →
      Syn .table (us ++ (.listsep, u) :: (.dot, v) :: t :: (.assign, w) :: ts) (.tset b k a)
  | expr {ts : List T2} {a : Ast} : Syn .sum ts a → Syn .expr ts a
  | sum1 {ts : List T2} {a : Ast} : Syn .prod ts a → Syn .sum ts a
  | sum {ts us : List T2} {t : T2} {o : Bin} {a b : Ast} : Syn .sum ts a → BinTok .sum t o → Syn .prod us b →
      Syn .sum (ts ++ t :: us) (.bin o a b)
  | prod1 {ts : List T2} {a : Ast} : Syn .modu ts a → Syn .prod ts a
  | prod {ts us : List T2} {t : T2} {o : Bin} {a b : Ast} : Syn .prod ts a → BinTok .prod t o → Syn .modu us b →
      Syn .prod (ts ++ t :: us) (.bin o a b)
  | modu1 {ts : List T2} {a : Ast} : Syn .pow ts a → Syn .modu ts a
  | modu {ts us : List T2} {t : T2} {o : Bin} {a b : Ast} : Syn .modu ts a → BinTok .modu t o → Syn .pow us b →
      Syn .modu (ts ++ t :: us) (.bin o a b)
  | pow1 {e : Bool} {ts : List T2} {a : Ast} : Syn (.shift e) ts a → Syn .pow ts a
  | pow {ts us : List T2} {t : T2} {o : Bin} {a b : Ast} : Syn (.shift false) ts a → BinTok .pow t o → Syn .pow us b →
      Syn .pow (ts ++ t :: us) (.bin o a b)
  | shift1 {e : Bool} {ts : List T2} {a : Ast} : Syn (.andor e) ts a → Syn (.shift e) ts a
  | shift {e : Bool} {ts us : List T2} {t : T2} {o : Bin} {a b : Ast} : Syn (.shift false) ts a → BinTok (.shift false) t o → Syn (.andor e) us b →
      Syn (.shift e) (ts ++ t :: us) (.bin o a b)
  | andor1 {e : Bool} {ts : List T2} {a : Ast} : Syn (.bnot e) ts a → Syn (.andor e) ts a
  | andor {e : Bool} {ts us : List T2} {t : T2} {o : Bin} {a b : Ast} : Syn (.andor false) ts a → BinTok (.andor false) t o → Syn (.bnot e) us b →
      Syn (.andor e) (ts ++ t :: us) (.bin o a b)
  | bnot {e : Bool} {v : Bytes} {ts : List T2} {a : Ast} : Syn (.bnot e) ts a → Syn (.bnot e) ((.bnot, v) :: ts) (.un .bnot a)
  | opnd {e : Bool} {ts : List T2} {a : Ast} : Syn (.opnd e) ts a → Syn (.bnot e) ts a
  | lam {u v w : Bytes} {ps ts : List T2} {xs : List Bytes} {b : Ast} : Ids ps xs → Syn .blk ts b →
      Syn (.opnd false) ((.fun_, u) :: (.paropen, v) :: (ps ++ (.parclose, w) :: ts)) (.lam xs b)
  | nil {v : Bytes} : Syn (.opnd false) [(.nil, v)] .nil
  | num {t : Bytes} : Syn (.opnd false) [(.const, t)] (.num t)
  | str {s : Bytes} : Syn (.opnd false) [(.string, s)] (.str s)
  | par {v w : Bytes} {ts : List T2} {a : Ast} : Syn .cond ts a → Syn (.opnd false) ((.paropen, v) :: (ts ++ [(.parclose, w)])) a
  | signed {s : UInt8} {t : Bytes} : s = 43 ∨ s = 45 → Syn (.opnd false) [(.addsub, [s]), (.const, t)] (.num (s :: t))
  | plus {ts : List T2} {a : Ast} : Syn .pow ts a → (∀ v, ts.head? ≠ some (.const, v)) → Syn (.opnd true) ((.addsub, [43]) :: ts) a
  | minus {ts : List T2} {a : Ast} : Syn .pow ts a → (∀ v, ts.head? ≠ some (.const, v)) → Syn (.opnd true) ((.addsub, [45]) :: ts) (.un .unm a)
  | ref {ts : List T2} {a : Ast} : Syn .ref ts a → Syn (.opnd false) ts a
  | id {x : Bytes} : Syn .ref [(.id, x)] (.id x)
  | field {v s : Bytes} {ts : List T2} {a : Ast} : Syn .ref ts a → Syn .ref (ts ++ [(.dot, v), (.id, s)]) (.field a s)
  | index {v w : Bytes} {ts us : List T2} {a e : Ast} : Syn .ref ts a → Syn .expr us e →
      Syn .ref (ts ++ (.idxopen, v) :: (us ++ [(.idxclose, w)])) (.index a e)
  | call0 {v w : Bytes} {ts : List T2} {a : Ast} : Syn .ref ts a → Syn .ref (ts ++ [(.paropen, v), (.parclose, w)]) (.call a .noArg)
  | call {v w : Bytes} {ts us : List T2} {a e : Ast} : Syn .ref ts a → Syn .args us e →
      Syn .ref (ts ++ (.paropen, v) :: (us ++ [(.parclose, w)])) (.call a e)
  | arg1 {ts : List T2} {a : Ast} : Syn .cond ts a → Syn .args ts (.arg .noArg a)
  | arg {v : Bytes} {ts us : List T2} {b a : Ast} : Syn .args ts b → Syn .cond us a → Syn .args (ts ++ (.listsep, v) :: us) (.arg b a)
  -- statements
  | ret0 {v : Bytes} : Syn .simple [(.return_, v)] .ret0
  | ret {v : Bytes} {ts : List T2} {a : Ast} : Syn .cond ts a → Syn .simple ((.return_, v) :: ts) (.ret a)
  | assign {v : Bytes} {ts us : List T2} {r e : Ast} : Syn .ref ts r → (∀ f a, r ≠ .call f a) → Syn .expr us e →
      Syn .simple (ts ++ (.assign, v) :: us) (.assign r e)
  | run {ts : List T2} {f a : Ast} : Syn .ref ts (.call f a) → Syn .simple ts (.run (.call f a))
  | simple {ts : List T2} {s : Ast} : Syn .simple ts s → Syn .stat ts s
  | decl {v x : Bytes} : Syn .stat [(.var, v), (.id, x)] (.decl x)
  | init {v w x : Bytes} {ts : List T2} {e : Ast} : Syn .expr ts e → Syn .stat ((.var, v) :: (.id, x) :: (.assign, w) :: ts) (.init x e)
  | func {u v w f : Bytes} {ps ts : List T2} {xs : List Bytes} {b : Ast} : Ids ps xs → Syn .blk ts b →
      Syn .stat ((.fun_, u) :: (.id, f) :: (.paropen, v) :: (ps ++ (.parclose, w) :: ts)) (.func f xs b)
  | funcDoc {u v w d f : Bytes} {ps ts : List T2} {xs : List Bytes} {b : Ast} : Ids ps xs → Syn .blk ts b →
      Syn .stat ((.fun_, u) :: (.id, f) :: (.paropen, v) :: (ps ++ (.parclose, w) :: (.string, d) :: ts)) (.func f xs b)
  | ifs {u v w : Bytes} {cs ts : List T2} {c a : Ast} : Syn .cond cs c → Syn .sub ts a →
      Syn .stat ((.if_, u) :: (.paropen, v) :: (cs ++ (.parclose, w) :: ts)) (.ifs c a)
  | ite {u v w x : Bytes} {cs ts us : List T2} {c a b : Ast} : Syn .cond cs c → Syn .sub ts a → bare a = false → openIf a = false →
      Syn .sub us b → Syn .stat ((.if_, u) :: (.paropen, v) :: (cs ++ (.parclose, w) :: (ts ++ (.else_, x) :: us))) (.ite c a b)
  | while_ {u v w : Bytes} {cs ts : List T2} {c a : Ast} : Syn .cond cs c → Syn .sub ts a →
      Syn .stat ((.while_, u) :: (.paropen, v) :: (cs ++ (.parclose, w) :: ts)) (.while_ c a)
  | for_ {u v w x y : Bytes} {is cs us ts : List T2} {i c k a : Ast} : Syn .simple is i → bare i = false → Syn .cond cs c → Syn .simple us k → bare k = false →
      Syn .sub ts a →
      Syn .stat ((.for_, u) :: (.paropen, v) :: (is ++ (.listsep, w) :: (cs ++ (.listsep, x) :: (us ++ (.parclose, y) :: ts)))) (.for_ i c k a)
  | sub {ts : List T2} {s : Ast} : Syn .stat ts s → Syn .sub ts s
  | subBlk {ts : List T2} {s : Ast} : Syn .blk ts s → Syn .sub ts (.block s)
  | sub0 : Syn .sub [] .skip
  | stats0 : Syn .stats [] .skip
  | stats {ts us : List T2} {s l : Ast} : Syn .stat ts s → Syn .stats us l → (bare s = true → us = []) → Syn .stats (ts ++ us) (.seq s l)
  | blk {v w : Bytes} {ts : List T2} {b : Ast} : Syn .stats ts b → Syn .blk ((.blockopen, v) :: (ts ++ [(.blockclose, w)])) b

/-- A program: its last statement needs no closing brace. -/
def complete : Ast → Bool
  | .seq s .skip => !bare s
  | .seq _ l => complete l
  | _ => true

end Buzz.Lang
