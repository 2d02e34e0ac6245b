import Verif.StringLib

/-
Model of the lexer, src/buzz/buzzlex.c and buzzlex.h.

A file under way is represented by its remaining characters (`buf + cur_c` up to `buf_size`), so `cur_c` itself does not appear.  The
file system is a function from names to absolute path and contents; it stands for `fopen`, the search along `BUZZ_INCLUDE_PATH` and
`realpath` (buzzlex.c 24-67).  Characters above 127 are neither letters nor digits (the C locale).
-/
namespace Buzz.Lex

open Buzz.Msg Buzz.VM

/-- `buzztok_type_e` (buzzlex.h 14-47). -/
inductive TT where
  | id | const | string | var | nil | if_ | else_ | fun_ | return_ | for_ | while_ | landor | lnot | addsub | muldiv | mod | pow | lrshift
  | bandor | bnot | blockopen | blockclose | paropen | parclose | idxopen | idxclose | statend | listsep | assign | dot | cmp | eof
  deriving DecidableEq

/-- `buzztok_s` (buzzlex.h 53-64).  A missing value is the empty one; whether a token has a value depends only on its type. -/
structure Tok where
  type : TT
  value : Bytes
  line : Nat
  col : Nat
  fname : Bytes
  deriving DecidableEq

/-- `buzzlex_file_s` (buzzlex.h 70-83). -/
structure File where
  name : Bytes
  rest : Bytes
  line : Nat
  col : Nat
  deriving DecidableEq

/-- Opening a file: its absolute path and its contents. -/
abbrev FS := Bytes → Option (Bytes × Bytes)

/-- `buzzlex_file_new` (24-97): a newline is appended. -/
def fileNew (fs : FS) (fname : Bytes) : Option File :=
  (fs fname).map (fun f => ⟨f.1, f.2 ++ [10], 1, 0⟩)

/-- `buzzlex_isspace` (117-119). -/
def isBlank (c : UInt8) : Bool := c == 32 || c == 9 || c == 13

/-- `isalpha` of the C locale. -/
def isAlpha (c : UInt8) : Bool := (65 ≤ c && c ≤ 90) || (97 ≤ c && c ≤ 122)

/-- `buzzlex_isid` (121-123). -/
def isId (c : UInt8) : Bool := isAlpha c || isDigit c || c == 95

/-- `buzzlex_isquote` (129-131). -/
def isQuote (c : UInt8) : Bool := c == 39 || c == 34

/-- `buzzlex_isnumber` (133-135). -/
def isNumber (c : UInt8) : Bool := isDigit c || c == 46

/-- `buzzlex_newstring` (140-178): `n` characters are produced from the text at `s`, which ends with the zero behind the buffer.
Reading beyond that is undefined. -/
def newString : Nat → Bytes → Res Bytes
  | 0, _ => .ok []
  | _ + 1, [] => .ub
  | n + 1, c :: s =>
    if c ≠ 92 then do
      let r ← newString n s
      pure (c :: r)
    else
      match s with
      | [] => .ub
      | d :: s => do
        let r ← newString n s
        pure ((if d = 110 then 10 else if d = 116 then 9 else d) :: r)

/-- The loop that looks for the closing quote (560-574): the number of characters before it. -/
def closing (q : UInt8) : UInt8 → UInt8 → Bytes → Option Nat
  | _, _, [] => none
  | last1, last2, c :: s =>
    if c ≠ q ∨ (last1 = 92 ∧ last2 ≠ 92) then (closing q c last1 s).map (· + 1) else some 0

/-- The end-of-file token (`eoftok`, 238-243). -/
def eofTok : Tok := ⟨.eof, [], 0, 1, []⟩

/-- The keywords (255-261 and 424-434). -/
def keyword (v : Bytes) : TT :=
  if v = [118, 97, 114] then .var
  else if v = [105, 102] then .if_
  else if v = [101, 108, 115, 101] then .else_
  else if v = [102, 117, 110, 99, 116, 105, 111, 110] then .fun_
  else if v = [114, 101, 116, 117, 114, 110] then .return_
  else if v = [102, 111, 114] then .for_
  else if v = [119, 104, 105, 108, 101] then .while_
  else if v = [97, 110, 100] then .landor
  else if v = [111, 114] then .landor
  else if v = [110, 111, 116] then .lnot
  else if v = [110, 105, 108] then .nil
  else .id

/-- `nextchar` (227), repeated. -/
def File.adv (f : File) (n : Nat) : File := { f with rest := f.rest.drop n, col := f.col + n }

/-- The rest of `buzzlex_nexttok` (382-602): the token that begins with `c`; `f` is at `c`, `r` follows. -/
def token (f : File) (c : UInt8) (r : Bytes) : Res (Tok × File) :=
  let give (t : TT) (v : Bytes) (n : Nat) : Res (Tok × File) := .ok (⟨t, v, f.line, f.col, f.name⟩, f.adv n)
  if c = 10 then .ok (⟨.statend, [], f.line, f.col, f.name⟩, { f with rest := r, line := f.line + 1, col := 0 })
  else if c = 59 then give .statend [] 1
  else if c = 123 then give .blockopen [] 1
  else if c = 125 then give .blockclose [] 1
  else if c = 40 then give .paropen [] 1
  else if c = 41 then give .parclose [] 1
  else if c = 91 then give .idxopen [] 1
  else if c = 93 then give .idxclose [] 1
  else if c = 44 then give .listsep [] 1
  else if c = 46 then give .dot [] 1
  else if isDigit c then
    let v := c :: r.takeWhile isNumber
    give .const v v.length
  else if isAlpha c then
    let v := c :: r.takeWhile isId
    give (keyword v) v v.length
  else if c = 61 then
    if r.head? = some 61 then give .cmp [61, 61] 2 else give .assign [] 1
  else if c = 33 then
    if r.head? = some 61 then give .cmp [33, 61] 2 else give .bnot [] 1
  else if c = 60 ∨ c = 62 then
    if r.head? = some c then give .lrshift [c, c] 2
    else if r.head? = some 61 then give .cmp [c, 61] 2
    else give .cmp [c] 1
  else if c = 43 ∨ c = 45 then give .addsub [c] 1
  else if c = 42 ∨ c = 47 then give .muldiv [c] 1
  else if c = 37 then give .mod [c] 1
  else if c = 94 then give .pow [c] 1
  else if c = 38 ∨ c = 124 then give .bandor [c] 1
  else if isQuote c then
    match closing c 0 0 r with
    | none => .ok (eofTok, f.adv (r.length + 1))
    | some n => do
      let v ← newString n (r ++ [0])
      give .string (cstr v) (n + 2)
  else .ok (eofTok, f.adv 1)

/-- `"include"`. -/
def includeWord : Bytes := [105, 110, 99, 108, 117, 100, 101]

/-- What an `include` at the current position leads to (310-375): a syntax error, a file to enter, or nothing (the file is being read
already); with the current file after it.  `names`: the files being read. -/
inductive Incl where
  | error (f : File)
  | enter (g f : File)
  | skip (f : File)

def openIncl (fs : FS) (names : List Bytes) (f : File) : Incl :=
  let f := f.adv 7
  let f := f.adv (f.rest.takeWhile isBlank).length
  match f.rest with
  | [] => .error f
  | q :: r =>
    if isQuote q then
      let nm := r.takeWhile (fun c => c ≠ q ∧ c ≠ 10)
      let f := f.adv (nm.length + 1)
      match f.rest with
      | [] => .error f
      | e :: _ =>
        if e = 10 then .error f
        else
          let f := f.adv 1
          match fileNew fs (cstr nm) with
          | none => .error f
          | some g => if g.name ∈ names then .skip f else .enter g f
    else .error f

/-- What one round of the outer loop of `buzzlex_nexttok` ends with: a token (or undefined behaviour), or another round. -/
inductive Round where
  | fin (r : Res (Tok × List File))
  | again (lex : List File)

/-- The end of the current file (277-283 and 297-303). -/
def closeFile (below : List File) : Round := if below = [] then .fin (.ok (eofTok, [])) else .again below

/-- One round of the outer loop (265-381), with the rest of the function if the loop ends.  The lexer is the list of the files being
read, innermost first (a `buzzdarray` in C, innermost last).  Asking for the current file of a finished lexer is undefined. -/
def lexRound (fs : FS) : List File → Round
  | [] => .fin .ub
  | f :: below =>
    let f := f.adv (f.rest.takeWhile isBlank).length
    match f.rest with
    | [] => closeFile below
    | c :: r =>
      if c = 35 then
        match r.dropWhile (· ≠ 10) with
        | [] => closeFile below
        | _ :: r => .again ({ f with rest := r, line := f.line + 1, col := 0 } :: below)
      else if (c :: r).take 7 = includeWord then
        match openIncl fs (f.name :: below.map File.name) f with
        | .error f => .fin (.ok (eofTok, f :: below))
        | .enter g f => .again (g :: f :: below)
        | .skip f => .again (f :: below)
      else .fin (do
        let (t, f) ← token f c r
        pure (t, f :: below))

/-- `buzzlex_nexttok` (263-602), at most `n` rounds. -/
def nexttok (fs : FS) : Nat → List File → Res (Tok × List File)
  | 0, _ => .hang
  | n + 1, lex =>
    match lexRound fs lex with
    | .fin r => r
    | .again lex => nexttok fs n lex

/-- `buzzlex_new` (211-222). -/
def lexNew (fs : FS) (fname : Bytes) : Option (List File) := (fileNew fs fname).map (fun f => [f])

/-- All tokens up to the first end-of-file token, as the parser requests them (at most `n`, each with at most `n` rounds). -/
def tokens (fs : FS) : Nat → List File → Res (List Tok)
  | 0, _ => .hang
  | n + 1, lex => do
    let (t, lex) ← nexttok fs n lex
    if t.type = .eof then pure [t]
    else do
      let r ← tokens fs n lex
      pure (t :: r)

end Buzz.Lex
