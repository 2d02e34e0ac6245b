import Verif.FMap
import Verif.StringLib

/-
Debug information and breakpoints, src/buzz/buzzdebug.c.

Dictionaries are finite maps (`Verif/FMap.lean`), the breakpoint array a list (C01).  File names are compared by content; the set of
file names only shares their storage and is not modelled.  Not modelled: printing, `buzzdebug_closure_call` and
`buzzdebug_function_call`.
-/
namespace Buzz.Debug

open Buzz.Msg Buzz.VM

/-- A position in a script (`struct buzzdebug_entry_s`). -/
structure Pos where
  fname : Bytes
  line : Nat
  col : Nat
  deriving DecidableEq

/-- `struct buzzdebug_s`. -/
structure Dbg where
  off2script : List (Int × Pos)
  script2off : List (Pos × Int)
  bps : List Int
  deriving DecidableEq

/-- `buzzdebug_new` (74-98). -/
def new : Dbg := ⟨[], [], []⟩

/-- `buzzdebug_info_set` (197-231). -/
def infoSet (d : Dbg) (off : Int) (p : Pos) : Dbg :=
  let d := { d with off2script := FMap.set d.off2script off p }
  match FMap.get d.script2off p with
  | none => { d with script2off := FMap.set d.script2off p off }
  | some o => if o > off then { d with script2off := FMap.set d.script2off p off } else d

/-- `buzzdebug_info_get_fromoffset` (buzzdebug.h 210). -/
def fromOffset (d : Dbg) (off : Int) : Option Pos := FMap.get d.off2script off

/-- `buzzdebug_info_get_fromscript` (236-248). -/
def fromScript (d : Dbg) (p : Pos) : Option Int := FMap.get d.script2off p

/-- `buzzdebug_breakpoint_exists` (272-277). -/
def bpExists (d : Dbg) (off : Int) : Bool := d.bps.contains off

/-- `buzzdebug_breakpoint_set_offset` (261-267). -/
def bpSet (d : Dbg) (off : Int) : Dbg := if bpExists d off then d else { d with bps := d.bps ++ [off] }

/-- `buzzdebug_breakpoint_remove` (buzzdebug.h 243): by index. -/
def bpRemove (d : Dbg) (i : Nat) : Dbg := { d with bps := d.bps.eraseIdx i }

/-- `buzzdebug_breakpoint_clear` (buzzdebug.h 249). -/
def bpClear (d : Dbg) : Dbg := { d with bps := [] }

/-! ### Files -/

/-- `n` bytes of a number as `fwrite` puts them on a little-endian machine. -/
def le : Nat → Nat → Bytes
  | 0, _ => []
  | n + 1, x => byte (x % 256) :: le n (x / 256)

/-- The number in some bytes. -/
def unle : Bytes → Nat
  | [] => 0
  | b :: l => b.toNat + 256 * unle l

/-- `buzzdebug_entry_dump` (161-176): offset, line, column, length and characters of the file name. -/
def dump (e : Int × Pos) : Bytes :=
  le 4 (e.1 % 4294967296).toNat ++ le 8 e.2.line ++ le 8 e.2.col ++ le 2 (e.2.fname.length % 65536) ++ e.2.fname.take (e.2.fname.length % 65536)

/-- `buzzdebug_tofile` (178-192): the file contents, entries in the order of the dictionary, and the result, which is 0 when all went
well. -/
def toFile (es : List (Int × Pos)) : Bytes × Int := (es.flatMap dump, 0)

/-- The loop of `buzzdebug_fromfile` (125-146); `max` is the size of the name buffer.  A name as long as the buffer is terminated
outside of it, and the size 65535 + 1 wraps around to 0. -/
def readLoop : Nat → Nat → Bytes → Dbg → Res Dbg
  | 0, _, _, _ => .hang
  | n + 1, max, bs, d =>
    if bs.length < 22 then .ok d
    else
      let off := unle (bs.take 4)
      let line := unle ((bs.drop 4).take 8)
      let col := unle ((bs.drop 12).take 8)
      let len := unle ((bs.drop 20).take 2)
      let bs := bs.drop 22
      let max := if len > max then (len + 1) % 65536 else max
      if bs.length < len then (if bs.length > max then .ub else .ok d)
      else if len ≥ max then .ub
      else readLoop n max (bs.drop len) (infoSet d (intOfU32 off) ⟨cstr (bs.take len), line, col⟩)

/-- `buzzdebug_fromfile` (115-151): adds the entries of a file to the information. -/
def fromFile (bs : Bytes) (d : Dbg) : Res Dbg := readLoop (bs.length + 1) 512 bs d

/-! ### Running to a breakpoint -/

/-- The loop of `buzzdebug_continue` (290-292), at most `n` rounds. -/
def contLoop (E : Env) (F : CFuns) (d : Dbg) : Nat → VM → Res VM
  | 0, _ => .hang
  | n + 1, vm =>
    if bpExists d vm.pc then .ok vm
    else do
      let vm ← step E F vm
      if vm.state = .ready then contLoop E F d n vm else pure vm

/-- `buzzdebug_continue` (282-296). -/
def cont (E : Env) (F : CFuns) (d : Dbg) (n : Nat) (vm : VM) : Res VM :=
  if vm.state ≠ .ready ∧ vm.state ≠ .stopped then .ok vm
  else do
    let vm ← contLoop E F d n { vm with state := .ready }
    pure (if bpExists d vm.pc then { vm with state := .stopped } else vm)

end Buzz.Debug
