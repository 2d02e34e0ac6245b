import Verif.Lex
import Verif.Asm

/-
The compiler, src/buzz/buzzparser.c: from tokens to assembly text.

The lexer is represented by the tokens it is going to give, up to the first end-of-file token, and by whether all files are closed
then (`fin`).  A line of assembly is a value of `Ln`, printed by `Ln.text`; an instruction is given by its opcode, whose name is
printed.  The code of the chunk under construction (`par->chunk->code`) is held in `code` and moves to the list of chunks when the
chunk is completed; the buffers `tmpcode` (311-339) are values passed along.  Dictionaries are finite maps (C01-C04).  Error messages
are not modelled, except that naming the current file of a lexer whose files are all closed is undefined (`buzzlex_getfile`).  Labels
and counts are natural numbers.  `PARSE_ERROR` is `none`.
-/
namespace Buzz.Parser

open Buzz.Msg Buzz.Lex Buzz.Debug

/-- `struct sym_s` (81-91); `type` is never used.  `gen` counts how often the symbol was stored before under this name in the base
table: `buzzdict_set` frees the previous symbol (buzzdict.c 115-120), so a pointer to it is only good as long as `gen` is the same. -/
structure Sym where
  pos : Nat
  global : Bool
  gen : Nat
  deriving DecidableEq

/-- A symbol table. -/
abbrev Syms := List (Bytes × Sym)

/-- A line of assembly: `@__label_k`, an empty line and `@__exitpoint`, or an instruction without argument, with a number, with a text
and with a label. -/
inductive Ln where
  | lab (k : Nat)
  | exit
  | op (i : Nat)
  | num (i : Nat) (v : Int)
  | txt (i : Nat) (t : Bytes)
  | ref (i : Nat) (k : Nat)
  deriving DecidableEq

/-- `struct chunk_s` (209-222); `sym` is the name and generation of the function's symbol. -/
structure Chunk where
  label : Nat
  code : List (Ln × Pos)
  sym : Option (Bytes × Nat)

/-- `struct buzzparser_s` (buzzparser.h).  `symstack` has the top first, `par->syms` is its head. -/
structure P where
  tok : Tok
  toks : List Tok
  fin : Bool
  labels : Nat
  code : List (Ln × Pos)
  chunks : List Chunk
  symstack : List Syms
  strings : List (Bytes × Nat)

/-- What the parsing functions return through pointers: the number of arguments; `struct idrefinfo_s` (191-196), where `info` is a
position or `-2` (`TYPE_CLOSURE`) or `-3` (`TYPE_TABLE`). -/
structure Ret where
  num : Nat
  info : Int
  glob : Bool

/-- Parsing functions. -/
def M (α : Type) := P → Res (Option (α × P))

instance : Monad M where
  pure a := fun p => .ok (some (a, p))
  bind x f := fun p =>
    match x p with
    | .ok (some (a, p')) => f a p'
    | .ok none => .ok none
    | .ub => .ub
    | .abort => .abort
    | .hang => .hang

/-- `return PARSE_ERROR` after a message that does not need the current file. -/
def fail {α : Type} : M α := fun _ => .ok none

/-- `return PARSE_ERROR` after a message that names the current file: with the end-of-file token the lexer may have none. -/
def failHere {α : Type} : M α := fun p => if p.tok.type = .eof ∧ p.fin then .ub else .ok none

/-- The current token. -/
def tok : M Tok := fun p => .ok (some (p.tok, p))

/-- Changes of the state. -/
def upd (f : P → P) : M Unit := fun p => .ok (some ((), f p))

/-- Parts of the state. -/
def ask {α : Type} (f : P → α) : M α := fun p => .ok (some (f p, p))

/-- `fetchtok` (344-350): statement ends are skipped.  The parser never goes beyond the end of file. -/
def fetch : M Unit := fun p =>
  match p.toks.dropWhile (fun t => decide (t.type = .statend)) with
  | [] => .ub
  | t :: r => .ok (some ((), { p with tok := t, toks := r }))

/-- `tokmatch` (352-374).  At a token that is not the end of file the lexer has a current file. -/
def expect (t : TT) : M Unit := do
  let k ← tok
  if k.type = t then pure () else fail

/-- The debug information printed after a line (245): `printf` shows the missing file name as `(null)`. -/
def mark (t : Tok) : Pos := ⟨if t.type = .eof then [40, 110, 117, 108, 108, 41] else t.fname, t.line, t.col⟩

/-- `chunk_append` (273-278) with `chunk_addcode` (241-263). -/
def emit (l : Ln) : M Unit := upd (fun p => { p with code := p.code ++ [(l, mark p.tok)] })

/-- `chunk_buf_push` (311-316). -/
def bufPush : M (List (Ln × Pos)) := fun p => .ok (some (p.code, { p with code := [] }))

/-- `chunk_buf_pop` (318-328). -/
def bufPop (saved : List (Ln × Pos)) : M Unit := upd (fun p => { p with code := saved ++ p.code })

/-- `chunk_buf_append` (330-339). -/
def bufAppend (saved : List (Ln × Pos)) (l : Ln) : M (List (Ln × Pos)) := ask (fun p => saved ++ [(l, mark p.tok)])

/-- `string_add` (60-73): the positions are 16-bit numbers. -/
def stringAdd (ss : List (Bytes × Nat)) (s : Bytes) : List (Bytes × Nat) × Nat :=
  match FMap.get ss s with
  | some i => (ss, i)
  | none => (FMap.set ss s (ss.length % 65536), ss.length % 65536)

/-- `string_add(par->strings, s)`. -/
def addStr (s : Bytes) : M Nat := fun p => .ok (some ((stringAdd p.strings s).2, { p with strings := (stringAdd p.strings s).1 }))

/-- `sym_lookup` (94-108). -/
def lookup (name : Bytes) : List Syms → Option Sym
  | [] => none
  | t :: ts =>
    match FMap.get t name with
    | some s => some s
    | none => lookup name ts

/-- Changes the base table. -/
def onBase (f : Syms → Syms) : List Syms → List Syms
  | [] => []
  | [t] => [f t]
  | t :: ts => t :: onBase f ts

/-- Changes the top table. -/
def onTop (f : Syms → Syms) : List Syms → List Syms
  | [] => []
  | t :: ts => f t :: ts

/-- Stores a global symbol. -/
def setGlobal (name : Bytes) (pos : Nat) (t : Syms) : Syms :=
  FMap.set t name ⟨pos, true, match FMap.get t name with | some s => s.gen + 1 | none => 0⟩

/-- `sym_add` (110-138) with the scope decided. -/
def symAdd (name : Bytes) (global : Bool) : M Unit := upd (fun p =>
  if global then
    let r := stringAdd p.strings name
    { p with strings := r.1, symstack := onBase (setGlobal name r.2) p.symstack }
  else { p with symstack := onTop (fun t => FMap.set t name ⟨t.length, false, 0⟩) p.symstack })

/-- `sym_add` with `SCOPE_AUTO`. -/
def symAuto (name : Bytes) : M Unit := do
  let n ← ask (fun p => p.symstack.length)
  symAdd name (decide (n = 1))

/-- `symt_push` (181). -/
def symtPush : M Unit := upd (fun p => { p with symstack := [] :: p.symstack })

/-- `symt_clone` (183). -/
def symtClone : M Unit := upd (fun p => { p with symstack := p.symstack.headD [] :: p.symstack })

/-- `symt_pop` (185). -/
def symtPop : M Unit := upd (fun p => { p with symstack := p.symstack.tail })

/-- New labels. -/
def newLabels (n : Nat) : M Nat := fun p => .ok (some (p.labels, { p with labels := p.labels + n }))

/-- `chunk_push` (303-307): the position of the chunk and the code of the interrupted one. -/
def chunkPush (sym : Option (Bytes × Nat)) : M (Nat × List (Ln × Pos)) := fun p =>
  .ok (some ((p.chunks.length, p.code),
    { p with labels := p.labels + 1, code := [], chunks := p.chunks ++ [⟨p.labels, [], sym⟩] }))

/-- `chunk_pop` (309). -/
def chunkPop (at_ : Nat × List (Ln × Pos)) : M Unit := upd (fun p =>
  { p with code := at_.2, chunks := p.chunks.modify at_.1 (fun c => { c with code := p.code }) })

/-- `pushs`, `pushi`, `pushf`: the instruction for a constant (1046-1053 and others). -/
def constant (pre t : Bytes) : Ln := if 46 ∈ t then .txt 35 (pre ++ t) else .txt 36 (pre ++ t)

/-- The parsing functions, and the loops in them. -/
inductive NT where
  | statlist | statRest | stat | block (push : Bool) | blockstat | var | fun_ | if_ | for_ | while_
  | condlist | condlistRest (n : Nat) | cond | condRest | cmp
  | expr | entry | entries | sumRest | prod | prodRest | modulo | modRest | power | shift | shiftRest
  | andor | andorRest | bnot | operand | command | idlist | idlistRest
  | idref (lvalue : Bool) | idrefRest (lvalue : Bool) (info : Int) (glob : Bool) (saved : List (Ln × Pos))
  | lambda

/-- Nothing is returned. -/
def done : M Ret := pure ⟨0, 0, false⟩

/-- One more parameter (1179-1182). -/
def param : M Unit := do
  let t ← tok
  let s ← ask (fun p => lookup t.value p.symstack)
  match s with
  | some ⟨_, false, _⟩ => pure ()
  | _ => symAdd t.value false

/-- The symbol `self`. -/
def selfName : Bytes := [115, 101, 108, 102]

/-- Adds `self` unless it is a local symbol (641-642, 1332-1333). -/
def addSelf : M Unit := do
  let s ← ask (fun p => lookup selfName p.symstack)
  match s with
  | some ⟨_, false, _⟩ => pure ()
  | _ => symAdd selfName false

/-- The key of a table entry (876-894, 913-931). -/
def entryKey : M Unit := do
  let t ← tok
  if t.type = .id then do
    let i ← addStr t.value
    emit (.num 37 i)
  else if t.type = .const then emit (constant [] t.value)
  else failHere

/-- The end of a block (524-537): the symbols from position `n` on are removed. -/
def closeBlock (n : Nat) : M Unit := do
  let k ← ask (fun p => (p.symstack.headD []).length)
  if k - n ≠ 0 then emit (.num 43 ((k - n : Nat) : Int)) else pure ()
  upd (fun p => { p with symstack := onTop (fun t => t.filter (fun e => decide (e.2.pos < n))) p.symstack })

/-- Loads what has been referred to so far (1241-1259 and 1293-1307). -/
def load (info : Int) (glob : Bool) (call : Bool) : M Unit :=
  if glob then do
    if call then emit (.op 2) else pure ()
    emit (.num 37 info)
    emit (.op 28)
  else if 0 ≤ info then do
    if call then emit (.op 2) else pure ()
    emit (.num 41 info)
  else if info = -3 then emit (.op 32)
  else if info = -2 then emit (.op 33)
  else pure ()

/-- The instruction of a comparison (836-841): other texts leave it undefined. -/
def cmpOp (v : Bytes) : Option Nat :=
  if v = [61, 61] then some 22
  else if v = [33, 61] then some 23
  else if v = [60] then some 26
  else if v = [60, 61] then some 27
  else if v = [62] then some 24
  else if v = [62, 61] then some 25
  else none

/-- The parsing functions (420-1352); `rec` stands for the calls. -/
def body (rec : NT → M Ret) : NT → M Ret
  -- parse_statlist (445-461)
  | .statlist => do
    let _ ← rec .stat
    rec .statRest
  | .statRest => do
    let t ← tok
    if t.type = .eof ∨ t.type = .blockclose then done
    else do
      let _ ← rec .stat
      rec .statRest
  -- parse_stat (463-477)
  | .stat => do
    let t ← tok
    if t.type = .statend ∨ t.type = .blockclose then done
    else if t.type = .var then rec .var
    else if t.type = .fun_ then rec .fun_
    else if t.type = .if_ then rec .if_
    else if t.type = .for_ then rec .for_
    else if t.type = .while_ then rec .while_
    else rec .command
  -- parse_block (501-543)
  | .block push => do
    expect .blockopen
    fetch
    let t ← tok
    if t.type = .blockclose then do
      fetch
      done
    else do
      if push then do
        let n ← ask (fun p => p.symstack.length)
        if n = 1 then symtPush else symtClone
      else pure ()
      let n ← ask (fun p => (p.symstack.headD []).length)
      let _ ← rec .statlist
      expect .blockclose
      fetch
      closeBlock n
      if push then symtPop else pure ()
      done
  -- parse_blockstat (548-557)
  | .blockstat => do
    let t ← tok
    if t.type = .blockopen then rec (.block true) else rec .stat
  -- parse_var (562-615)
  | .var => do
    expect .var
    fetch
    expect .id
    let t ← tok
    let s ← ask (fun p => lookup t.value p.symstack)
    match s with
    | some ⟨_, false, _⟩ => fail
    | _ => do
      symAuto t.value
      let s ← ask (fun p => lookup t.value p.symstack)
      match s with
      | none => fun _ => .ub
      | some s => do
        if s.global then emit (.num 37 s.pos) else pure ()
        fetch
        let t ← tok
        if t.type = .assign then do
          if s.global then pure () else do
            emit (.op 2)
            emit (.num 42 s.pos)
          fetch
          let _ ← rec .expr
        else emit (.op 2)
        if s.global then emit (.op 29) else emit (.num 42 s.pos)
        done
  -- parse_fun (617-666)
  | .fun_ => do
    expect .fun_
    fetch
    expect .id
    let t ← tok
    let n ← ask (fun p => p.symstack.length)
    if n > 1 then fail
    else do
      let s ← ask (fun p => lookup t.value p.symstack)
      if s = none then symAuto t.value else pure ()
      let s ← ask (fun p => lookup t.value p.symstack)
      let oldc ← chunkPush (s.map (fun s => (t.value, s.gen)))
      fetch
      expect .paropen
      fetch
      symtPush
      addSelf
      let _ ← rec .idlist
      expect .parclose
      fetch
      let t ← tok
      if t.type = .string then fetch else pure ()
      let _ ← rec (.block false)
      emit (.op 5)
      symtPop
      chunkPop oldc
      done
  -- parse_if (668-702)
  | .if_ => do
    let l ← newLabels 2
    expect .if_
    fetch
    expect .paropen
    fetch
    let _ ← rec .cond
    expect .parclose
    fetch
    emit (.ref 45 l)
    let _ ← rec .blockstat
    let t ← tok
    if t.type = .else_ then do
      fetch
      emit (.ref 44 (l + 1))
      emit (.lab l)
      let _ ← rec .blockstat
      emit (.lab (l + 1))
      done
    else do
      emit (.lab l)
      done
  -- parse_for (707-763)
  | .for_ => do
    let l ← newLabels 4
    expect .for_
    fetch
    expect .paropen
    fetch
    let _ ← rec .command
    expect .listsep
    fetch
    emit (.lab l)
    let _ ← rec .cond
    expect .listsep
    fetch
    emit (.ref 46 (l + 2))
    emit (.ref 44 (l + 3))
    emit (.lab (l + 1))
    let _ ← rec .command
    expect .parclose
    fetch
    emit (.ref 44 l)
    emit (.lab (l + 2))
    let _ ← rec .blockstat
    emit (.ref 44 (l + 1))
    emit (.lab (l + 3))
    done
  -- parse_while (768-793)
  | .while_ => do
    let l ← newLabels 2
    expect .while_
    fetch
    expect .paropen
    fetch
    emit (.lab l)
    let _ ← rec .cond
    expect .parclose
    fetch
    emit (.ref 45 (l + 1))
    let _ ← rec .blockstat
    emit (.ref 44 l)
    emit (.lab (l + 1))
    done
  -- parse_conditionlist (798-810)
  | .condlist => do
    let t ← tok
    if t.type = .parclose then done
    else do
      let _ ← rec .cond
      rec (.condlistRest 1)
  | .condlistRest n => do
    let t ← tok
    if t.type = .listsep then do
      fetch
      let _ ← rec .cond
      rec (.condlistRest (n + 1))
    else pure ⟨n, 0, false⟩
  -- parse_condition (812-829)
  | .cond => do
    let t ← tok
    if t.type = .lnot then do
      fetch
      let _ ← rec .cond
      emit (.op 16)
      done
    else do
      let _ ← rec .cmp
      rec .condRest
  | .condRest => do
    let t ← tok
    if t.type = .landor then do
      fetch
      let _ ← rec .cmp
      -- the instruction's name is `l` and the token's text
      if t.value = [97, 110, 100] then emit (.op 14)
      else if t.value = [111, 114] then emit (.op 15)
      else fun _ => .ub
      rec .condRest
    else done
  -- parse_comparison (831-846)
  | .cmp => do
    let _ ← rec .expr
    let t ← tok
    if t.type = .cmp then do
      fetch
      let _ ← rec .expr
      match cmpOp t.value with
      | some i => do
        emit (.op i)
        done
      | none => fun _ => .ub
    else done
  -- parse_expression (851-953)
  | .expr => do
    let t ← tok
    if t.type = .blockopen then do
      fetch
      let t ← tok
      if t.type ≠ .dot ∧ t.type ≠ .blockclose then failHere
      else do
        emit (.op 30)
        if t.type = .dot then do
          emit (.op 3)
          let _ ← rec .entry
          let _ ← rec .entries
        else pure ()
        expect .blockclose
        fetch
        done
    else do
      let _ ← rec .prod
      rec .sumRest
  -- an entry of a table, from the dot on (875-905, 912-940)
  | .entry => do
    fetch
    entryKey
    fetch
    expect .assign
    fetch
    let _ ← rec .expr
    emit (.op 31)
    done
  | .entries => do
    let t ← tok
    if t.type = .listsep then do
      emit (.op 3)
      fetch
      expect .dot
      let _ ← rec .entry
      rec .entries
    else done
  | .sumRest => do
    let t ← tok
    if t.type = .addsub then do
      fetch
      let _ ← rec .prod
      if t.value.head? = some 43 then emit (.op 7)
      else if t.value.head? = some 45 then emit (.op 8)
      else pure ()
      rec .sumRest
    else done
  -- parse_product (955-969)
  | .prod => do
    let _ ← rec .modulo
    rec .prodRest
  | .prodRest => do
    let t ← tok
    if t.type = .muldiv then do
      fetch
      let _ ← rec .modulo
      if t.value.head? = some 42 then emit (.op 9)
      else if t.value.head? = some 47 then emit (.op 10)
      else pure ()
      rec .prodRest
    else done
  -- parse_modulo (971-979)
  | .modulo => do
    let _ ← rec .power
    rec .modRest
  | .modRest => do
    let t ← tok
    if t.type = .mod then do
      fetch
      let _ ← rec .power
      emit (.op 11)
      rec .modRest
    else done
  -- parse_power, parse_powerrest (981-992)
  | .power => do
    let _ ← rec .shift
    let t ← tok
    if t.type = .pow then do
      fetch
      let _ ← rec .power
      emit (.op 12)
      done
    else done
  -- parse_bitshift (994-1006)
  | .shift => do
    let _ ← rec .andor
    rec .shiftRest
  | .shiftRest => do
    let t ← tok
    if t.type = .lrshift then do
      fetch
      let _ ← rec .andor
      if t.value.take 2 = [60, 60] then emit (.op 20)
      else if t.value.take 2 = [62, 62] then emit (.op 21)
      else pure ()
      rec .shiftRest
    else done
  -- parse_bitwiseandor (1008-1019)
  | .andor => do
    let _ ← rec .bnot
    rec .andorRest
  | .andorRest => do
    let t ← tok
    if t.type = .bandor then do
      fetch
      let _ ← rec .bnot
      if t.value.head? = some 38 then emit (.op 17)
      else if t.value.head? = some 124 then emit (.op 18)
      else fail
      rec .andorRest
    else done
  -- parse_bitwisenot (1021-1030)
  | .bnot => do
    let t ← tok
    if t.type = .bnot then do
      fetch
      let _ ← rec .bnot
      emit (.op 19)
      done
    else rec .operand
  -- parse_operand (1032-1090)
  | .operand => do
    let t ← tok
    if t.type = .fun_ then do
      let l ← ask (fun p => p.labels)
      emit (.ref 40 l)
      rec .lambda
    else if t.type = .nil then do
      emit (.op 2)
      fetch
      done
    else if t.type = .const then do
      emit (constant [] t.value)
      fetch
      done
    else if t.type = .string then do
      let i ← addStr t.value
      emit (.num 37 i)
      fetch
      done
    else if t.type = .paropen then do
      fetch
      let _ ← rec .cond
      expect .parclose
      fetch
      done
    else if t.type = .addsub then do
      fetch
      let c ← tok
      if c.type = .const then do
        emit (constant (t.value.take 1) c.value)
        fetch
        done
      else do
        let _ ← rec .power
        if t.value.head? = some 45 then emit (.op 13) else pure ()
        done
    else do
      let _ ← rec (.idref false)
      done
  -- parse_command (1095-1157)
  | .command => do
    let t ← tok
    if t.type = .return_ then do
      fetch
      let t ← tok
      if t.type = .statend ∨ t.type = .blockclose then do
        emit (.op 5)
        done
      else do
        let _ ← rec .cond
        emit (.op 6)
        done
    else do
      let r ← rec (.idref true)
      let t ← tok
      if t.type = .assign then
        if r.info = -2 then fail
        else do
          if r.glob then emit (.num 37 r.info) else pure ()
          fetch
          let _ ← rec .expr
          if r.glob then emit (.op 29)
          else if 0 ≤ r.info then emit (.num 42 r.info)
          else if r.info = -3 then emit (.op 31)
          else pure ()
          done
      else if r.info = -2 then do
        emit (.op 4)
        done
      else failHere
  -- parse_idlist (1164-1193)
  | .idlist => do
    let t ← tok
    if t.type = .parclose then done
    else do
      expect .id
      param
      fetch
      rec .idlistRest
  | .idlistRest => do
    let t ← tok
    if t.type = .listsep then do
      fetch
      expect .id
      param
      fetch
      rec .idlistRest
    else done
  -- parse_idref (1219-1311)
  | .idref lvalue => do
    expect .id
    let t ← tok
    let s ← ask (fun p => lookup t.value p.symstack)
    if s = none then symAdd t.value true else pure ()
    let s ← ask (fun p => lookup t.value p.symstack)
    match s with
    | none => fun _ => .ub
    | some s => do
      fetch
      let saved ← bufPush
      rec (.idrefRest lvalue s.pos s.global saved)
  | .idrefRest lvalue info glob saved => do
    let t ← tok
    if t.type = .dot then do
      load info glob false
      fetch
      expect .id
      let t ← tok
      let i ← addStr t.value
      fetch
      let u ← tok
      if u.type = .paropen then emit (.op 3) else pure ()
      emit (.num 37 i)
      rec (.idrefRest lvalue (-3) false saved)
    else if t.type = .idxopen then do
      load info glob false
      fetch
      let inner ← bufPush
      let _ ← rec .expr
      expect .idxclose
      fetch
      let u ← tok
      let inner ← (if u.type = .paropen then bufAppend inner (.op 3) else pure inner)
      bufPop inner
      rec (.idrefRest lvalue (-3) false saved)
    else if t.type = .paropen then do
      load info glob true
      fetch
      let r ← rec .condlist
      expect .parclose
      fetch
      let u ← tok
      let saved ← (if u.type = .paropen then bufAppend saved (.op 2) else pure saved)
      emit (.num 36 r.num)
      rec (.idrefRest lvalue (-2) false saved)
    else do
      if lvalue = false ∨ info = -2 then load info glob false else pure ()
      bufPop saved
      pure ⟨0, info, glob⟩
  -- parse_lambda (1316-1352)
  | .lambda => do
    expect .fun_
    fetch
    let oldc ← chunkPush none
    expect .paropen
    fetch
    let n ← ask (fun p => p.symstack.length)
    if n = 1 then do
      symtPush
      addSelf
    else symtClone
    let _ ← rec .idlist
    expect .parclose
    fetch
    let _ ← rec (.block false)
    emit (.op 5)
    symtPop
    chunkPop oldc
    done

/-- The parsing functions with at most `n` nested calls. -/
def parse : Nat → NT → M Ret
  | 0, _ => fun _ => .hang
  | n + 1, nt => body (parse n) nt

/-- The strings given in a symbol file (1393-1422); its lines are taken as given. -/
def preload (ss : List Bytes) : List (Bytes × Nat) := ss.foldl (fun m s => (stringAdd m s).1) []

/-- `parse_script` (420-440).  A script without tokens has no chunks. -/
def script (n : Nat) (pre : List Bytes) (toks : List Tok) (fin : Bool) : Res (Option P) :=
  match toks.dropWhile (fun t => decide (t.type = .statend)) with
  | [] => .ub
  | t :: r =>
    let p : P := ⟨t, r, fin, 0, [], [], [], preload pre⟩
    if t.type = .eof then .ok (some p)
    else do
      let x ← (do
        symtPush
        let oldc ← chunkPush none
        let _ ← parse n .statlist
        emit .exit
        emit (.op 1)
        chunkPop oldc : M Unit) p
      pure (x.map Prod.snd)

/-! ### The assembly file -/

/-- `@__label_%u`. -/
def labelText (k : Nat) : Bytes := [64, 95, 95, 108, 97, 98, 101, 108, 95] ++ Obj.digits k

/-- `@__exitpoint`. -/
def exitText : Bytes := [64, 95, 95, 101, 120, 105, 116, 112, 111, 105, 110, 116]

/-- The name of an instruction. -/
def opName (i : Nat) : Bytes := Asm.names[i]?.getD []

/-- The text of a line. -/
def Ln.text : Ln → Bytes
  | .lab k => labelText k
  | .exit => 10 :: exitText
  | .op i => 9 :: opName i
  | .num i v => 9 :: (opName i ++ 32 :: Obj.fmtD v)
  | .txt i t => 9 :: (opName i ++ 32 :: t)
  | .ref i k => 9 :: (opName i ++ 32 :: labelText k)

/-- A line with its debug information (243-246). -/
def lineText (e : Ln × Pos) : Bytes :=
  e.1.text ++ (9 :: 124 :: (Obj.digits e.2.line ++ 44 :: (Obj.digits e.2.col ++ 44 :: (e.2.fname ++ [10]))))

/-- `chunk_register` (280-291).  The symbol of a function is one of the base table; reading it after it was replaced is undefined. -/
def register (base : Syms) (c : Chunk) : Res (List Ln) :=
  match c.sym with
  | none => .ok []
  | some (name, gen) =>
    match FMap.get base name with
    | none => .ub
    | some s =>
      if s.gen = gen then .ok (if s.global then [.num 37 s.pos, .ref 38 c.label, .op 29] else [.ref 38 c.label, .num 42 s.pos])
      else .ub

/-- The registration code of all chunks. -/
def registerAll (base : Syms) : List Chunk → Res (List Ln)
  | [] => .ok []
  | c :: cs => do
    let a ← register base c
    let b ← registerAll base cs
    pure (a ++ b)

/-- `chunk_print` (293-301). -/
def chunkText (c : Chunk) : Bytes := 10 :: (labelText c.label ++ 10 :: c.code.flatMap lineText)

/-- The strings in the order of their positions (buzzparser_parse 1453-1456): a stable sort. -/
def sorted (ss : List (Bytes × Nat)) : List Bytes := (ss.mergeSort (fun a b => decide (a.2 ≤ b.2))).map Prod.fst

/-- The rest of `buzzparser_parse` (1449-1465). -/
def output (p : P) : Res Bytes := do
  let r ← registerAll (p.symstack.getLastD []) p.chunks
  pure (33 :: (Obj.digits p.strings.length ++ 10 :: ((sorted p.strings).flatMap (fun s => 39 :: (s ++ [10])) ++
    10 :: (r.flatMap (fun l => l.text ++ [10]) ++ ((9 :: opName 0) ++ 10 :: p.chunks.flatMap chunkText)))))

/-- The tokens of a lexer, and whether all its files are closed at the end. -/
def drain (fs : FS) : Nat → List File → Res (List Tok × Bool)
  | 0, _ => .hang
  | n + 1, lex => do
    let (t, lex) ← nexttok fs n lex
    if t.type = .eof then pure ([t], lex.isEmpty)
    else do
      let r ← drain fs n lex
      pure (t :: r.1, r.2)

/-- The compiler `bzzparse` on a file: `buzzparser_new` (1357-1427) and `buzzparser_parse` (1445-1467). -/
def compile (fs : FS) (n : Nat) (pre : List Bytes) (fname : Bytes) : Res (Option Bytes) :=
  match lexNew fs fname with
  | none => .ok none
  | some lex => do
    let (toks, fin) ← drain fs n lex
    match ← script n pre toks fin with
    | none => pure none
    | some p => do
      let t ← output p
      pure (some t)

end Buzz.Parser
