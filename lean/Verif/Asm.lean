import Verif.Debug

/-
The assembler and the disassembler, src/buzz/buzzasm.c.

The text file is a list of bytes.  Simplifications: the size of the bytecode is a natural number (`uint32_t`), so programs are taken to
be below 2^31 bytes; the argument of a jump, four bytes that are not written in the first pass, is taken as zero there; messages are not
modelled; `isspace` is that of the C locale.  `strtof` is a parameter.  An error return (2) is `none`; the contents of the buffer are
then of no interest.
-/
namespace Buzz.Asm

open Buzz.Msg Buzz.VM Buzz.Debug

/-- What the assembler uses of the machine it runs on: byte order, and `strtof` as the bits of the result (`none`: no conversion). -/
structure Tools where
  endian : Endian
  strtof : Bytes → Option Nat

/-- `buzzvm_instr_desc` (buzzvm.c 19). -/
def names : List Bytes :=
  [[110, 111, 112], [100, 111, 110, 101], [112, 117, 115, 104, 110, 105, 108], [100, 117, 112], [112, 111, 112],
   [114, 101, 116, 48], [114, 101, 116, 49], [97, 100, 100], [115, 117, 98], [109, 117, 108], [100, 105, 118], [109, 111, 100],
   [112, 111, 119], [117, 110, 109], [108, 97, 110, 100], [108, 111, 114], [108, 110, 111, 116], [98, 97, 110, 100],
   [98, 111, 114], [98, 110, 111, 116], [108, 115, 104, 105, 102, 116], [114, 115, 104, 105, 102, 116], [101, 113],
   [110, 101, 113], [103, 116], [103, 116, 101], [108, 116], [108, 116, 101], [103, 108, 111, 97, 100],
   [103, 115, 116, 111, 114, 101], [112, 117, 115, 104, 116], [116, 112, 117, 116], [116, 103, 101, 116], [99, 97, 108, 108, 99],
   [99, 97, 108, 108, 115], [112, 117, 115, 104, 102], [112, 117, 115, 104, 105], [112, 117, 115, 104, 115],
   [112, 117, 115, 104, 99, 110], [112, 117, 115, 104, 99, 99], [112, 117, 115, 104, 108], [108, 108, 111, 97, 100],
   [108, 115, 116, 111, 114, 101], [108, 114, 101, 109, 111, 118, 101], [106, 117, 109, 112], [106, 117, 109, 112, 122],
   [106, 117, 109, 112, 110, 122]]

/-- The state of the first pass: bytecode and its capacity, label positions, label substitutions, debug information. -/
structure A where
  buf : Bytes
  cap : Nat
  labpos : List (Bytes × Nat)
  labsubs : List (Nat × Bytes)
  dbg : Dbg

/-- `getline`: the lines of a file, each with its newline. -/
def lines : Bytes → List Bytes
  | [] => []
  | c :: l =>
    if c = 10 then [10] :: lines l
    else match lines l with
      | [] => [[c]]
      | x :: xs => (c :: x) :: xs

/-- `strsep`: the token and the remaining string. -/
def strsep (delims : List UInt8) : Option Bytes → Option Bytes × Option Bytes
  | none => (none, none)
  | some s =>
    let t := s.takeWhile (fun c => !delims.contains c)
    match s.drop t.length with
    | [] => (some t, none)
    | _ :: r => (some t, some r)

/-- Trimming of trailing space (200-202, 232-234): the first character stays. -/
def rtrim : Bytes → Bytes
  | [] => []
  | c :: l => c :: (l.reverse.dropWhile isSpace).reverse

/-- `bcode_resize` (16-20) and writing: outside the buffer is undefined. -/
def put (st : A) (bs : Bytes) : Res A :=
  let cap := if st.buf.length + bs.length ≥ st.cap then st.cap + bs.length else st.cap
  if st.buf.length + bs.length ≤ cap then .ok { st with buf := st.buf ++ bs, cap := cap } else .ub

/-- `strtoul(s, &endptr, 10)` cast to 32 bits; `none` when nothing is converted.  `unsigned long` has 64 bits. -/
def strtoul32 (s : Bytes) : Option Nat :=
  match strtol s with
  | none => none
  | some v => some (if v.natAbs > 18446744073709551615 then 4294967295 else (v % 4294967296).toNat)

/-- `strtol(s, NULL, 10)` cast to 64 bits. -/
def strtol64 (s : Bytes) : Nat :=
  match strtol s with
  | none => 0
  | some v =>
    if v > 9223372036854775807 then 9223372036854775807
    else if v < -9223372036854775808 then 9223372036854775808
    else (v % 18446744073709551616).toNat

/-- Debug information of a line (217-230, 245-258). -/
def debugInfo (st : A) (info : Option Bytes) : A :=
  match info with
  | none => st
  | some [] => st
  | some (c :: l) =>
    let a := strsep [44, 10] (some (c :: l))
    let b := strsep [44, 10] a.2
    let f := strsep [44, 10] b.2
    match f.1 with
    | none => st
    | some fname =>
      { st with dbg := infoSet st.dbg st.buf.length ⟨fname, (a.1.map strtol64).getD 0, (b.1.map strtol64).getD 0⟩ }

/-- Adds a label substitution at the end of the bytecode. -/
def addSub (st : A) (l : Bytes) : A := { st with labsubs := FMap.set st.labsubs st.buf.length l }

/-- `bcode_add_arg` (35-49): an argument that is not a number is a label. -/
def addArg (T : Tools) (conv : Bytes → Option Nat) (st : A) : Option Bytes → Res (Option A)
  | none => .ok none
  | some [] => .ok none
  | some (c :: l) => do
    let st ← (match conv (c :: l) with
      | some w => put st (mem32 T.endian w)
      | none => put (addSub st (c :: l)) (mem32 T.endian 0))
    pure (some st)

/-- `bcode_add_arg_l` (64-73). -/
def addArgL (T : Tools) (st : A) : Option Bytes → Res (Option A)
  | none => .ok none
  | some [] => .ok none
  | some (c :: l) => do
    let st ← put (addSub st (c :: l)) (mem32 T.endian 0)
    pure (some st)

/-- An instruction (260-310): the opcode is the index of its name. -/
def addInstr (T : Tools) (st : A) (instr : Bytes) (arg : Option Bytes) : Res (Option A) :=
  match names.findIdx? (· == instr) with
  | none => .ok none
  | some op => do
    let st ← put st [byte op]
    if op < 35 then pure (some st)
    else if op = 35 then addArg T T.strtof st arg
    else if op < 44 then addArg T strtoul32 st arg
    else addArgL T st arg

/-- One line of the first pass (182-313). -/
def asmLine (T : Tools) (raw : Bytes) (st : A) : Res (Option A) :=
  match (cstr raw).dropWhile isSpace with
  | [] => .ok (some st)
  | c :: l =>
    if c = 35 then .ok (some st)
    else if c = 39 then do
      let st ← put st (l.dropLast ++ [0])
      pure (some st)
    else
      let t := rtrim (c :: l)
      if c = 33 then do
        let st ← put st (mem16 T.endian (strtol64 t.tail % 65536))
        pure (some st)
      else
        let a := strsep [124, 10] (some t)
        let b := strsep [124, 10] a.2
        if c = 64 then
          let st := debugInfo st b.1
          .ok (some { st with labpos := FMap.set st.labpos (rtrim (a.1.getD [])) st.buf.length })
        else
          let i := strsep [32, 10, 9] a.1
          let g := strsep [32, 10, 9] i.2
          addInstr T (debugInfo st b.1) (i.1.getD []) g.1

/-- The first pass (182-313). -/
def pass1 (T : Tools) : List Bytes → A → Res (Option A)
  | [], st => .ok (some st)
  | l :: ls, st => do
    match ← asmLine T l st with
    | none => pure none
    | some st => pass1 T ls st

/-- `memcpy(state->buf + subpos, labpos, 4)`. -/
def patch (T : Tools) (buf : Bytes) (pos v : Nat) : Res Bytes :=
  if pos + 4 ≤ buf.length then .ok (buf.take pos ++ mem32 T.endian v ++ buf.drop (pos + 4)) else .ub

/-- `buzz_asm_labsub` (113-137) over the substitutions. -/
def labsub (T : Tools) (labpos : List (Bytes × Nat)) : List (Nat × Bytes) → Bytes → Res (Option Bytes)
  | [], buf => .ok (some buf)
  | (pos, lab) :: subs, buf =>
    match FMap.get labpos lab with
    | none => .ok none
    | some p => if p ≥ buf.length then .ok none else do
      let buf ← patch T buf pos p
      labsub T labpos subs buf

/-- `buzz_asm` (142-330).  `order` is the order in which `buzzdict_foreach` goes through the substitutions. -/
def asm (T : Tools) (order : List (Nat × Bytes) → List (Nat × Bytes)) (file : Bytes) : Res (Option (Bytes × Dbg)) := do
  match ← pass1 T (lines file) ⟨[], 256, [], [], Debug.new⟩ with
  | none => pure none
  | some st =>
    match ← labsub T st.labpos (order st.labsubs) st.buf with
    | none => pure none
    | some buf => pure (some (buf, st.dbg))

/-! ### Reading back -/

/-- An instruction as the disassembler shows it: position, opcode, argument as a 32-bit word. -/
structure Shown where
  pos : Nat
  op : Nat
  arg : Option Nat
  deriving DecidableEq

/-- The second phase of `buzz_deasm` (386-418), at most `n` instructions. -/
def deasmLoop (h : Endian) (buf : Bytes) : Nat → Nat → Res (Option (List Shown))
  | 0, i => if i < buf.length then .hang else .ok (some [])
  | n + 1, i =>
    if i < buf.length then do
      let op ← rd buf i
      if op ≥ 47 then pure none
      else if op ≥ 35 then
        if i + 4 ≥ buf.length then pure none
        else do
          let a ← rd32 h buf (i + 1)
          let r ← deasmLoop h buf n (i + 5)
          pure (r.map (⟨i, op, some a⟩ :: ·))
      else do
        let r ← deasmLoop h buf n (i + 1)
        pure (r.map (⟨i, op, none⟩ :: ·))
    else .ok (some [])

/-- The first phase (363-382): the strings and the position behind them. -/
def deasmStrings (buf : Bytes) : Nat → Nat → Res (Option (List Bytes × Nat))
  | 0, i => .ok (some ([], i))
  | c + 1, i =>
    if i < buf.length then do
      let s ← cstrAt buf i
      let r ← deasmStrings buf c (i + s.length + 1)
      pure (r.map (fun r => (s :: r.1, r.2)))
    else .ok none

/-- `buzz_deasm` (350-422): the contents of the file it writes, without the debug information. -/
def deasm (h : Endian) (buf : Bytes) : Res (Option (List Bytes × List Shown)) := do
  let count ← rd16 h buf 0
  match ← deasmStrings buf count 2 with
  | none => pure none
  | some (ss, i) =>
    let r ← deasmLoop h buf buf.length i
    pure (r.map (fun r => (ss, r)))

end Buzz.Asm
