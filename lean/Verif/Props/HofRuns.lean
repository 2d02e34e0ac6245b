import Verif.Props.Pitfalls
import Verif.Props.HofMachine
import Verif.HomeLib
import Verif.LibSim
import Verif.Install

/-
Scripts with higher-order functions, compiled and run by the model (C77): the general theorems at work, and what happens when a callback changes the table.
-/
namespace Buzz.Props

open Buzz.F32 Buzz.Msg Buzz.Heap Buzz.Value Buzz.VM Buzz.HeapWire

/-- The library with the higher-order functions; a callback can call them again. -/
def hofLib : CFuns := hofFuns someEnv 100 (Sim.stdFuns someEnv Props.noFuns) 2

/-- How bytecode ends on a machine with the functions of buzztype.c: state, error and the value of the variable `x`.  The functions have the numbers they have after
those of buzzneighbors.c. -/
def playObj (code : Bytes) : Res (VM.State × VM.Err × Option Obj) := do
  let vm ← VM.load someEnv code VM.new
  let vm ← boot someEnv hofLib 200 vm
  let vm ← cmds someEnv 7 regObj ({ vm with nfuns := 11 }, 0)
  let vm ← VM.run someEnv hofLib 400 vm.1
  .ok (vm.state, vm.error, globalAt vm [120])

/-- A text is compiled, and its bytecode ends like this. -/
def BehavesObj (text : String) (r : Res (VM.State × VM.Err × Option Obj)) : Prop := ∃ code, codeOf text = .ok (some code) ∧ playObj code = r

def hofCode1 : Bytes := [3, 0, 116, 0, 120, 0, 102, 111, 114, 101, 97, 99, 104, 0, 0, 37, 0, 0, 0, 0, 30, 29, 37, 1, 0, 0, 0, 36, 0, 0, 0, 0, 29, 37, 0, 0, 0, 0, 28, 36, 1, 0, 0, 0, 36, 5, 0, 0, 0, 31, 37, 0, 0, 0, 0, 28, 36, 2, 0, 0, 0, 36, 6, 0, 0, 0, 31, 2, 37, 2, 0, 0, 0, 28, 37, 0, 0, 0, 0, 28, 40, 93, 0, 0, 0, 36, 2, 0, 0, 0, 33, 4, 1, 37, 1, 0, 0, 0, 37, 1, 0, 0, 0, 28, 36, 100, 0, 0, 0, 9, 41, 2, 0, 0, 0, 7, 29, 5]

theorem hofCode1_of : codeOf "t={}\nx=0\nt[1]=5\nt[2]=6\nforeach(t,function(k,v){x=x*100+v})" = .ok (some hofCode1) := codeS_eq (by decide +kernel)

theorem hofCode1_ends : playObj hofCode1 = .ok (.done, .none, some (.int 506)) := by decide +kernel

def hofCode2 : Bytes := [3, 0, 116, 0, 120, 0, 114, 101, 100, 117, 99, 101, 0, 0, 37, 0, 0, 0, 0, 30, 29, 37, 0, 0, 0, 0, 28, 36, 1, 0, 0, 0, 36, 5, 0, 0, 0, 31, 37, 0, 0, 0, 0, 28, 36, 2, 0, 0, 0, 36, 6, 0, 0, 0, 31, 37, 1, 0, 0, 0, 2, 37, 2, 0, 0, 0, 28, 37, 0, 0, 0, 0, 28, 40, 91, 0, 0, 0, 36, 100, 0, 0, 0, 36, 3, 0, 0, 0, 33, 29, 1, 41, 3, 0, 0, 0, 41, 2, 0, 0, 0, 7, 6, 5]

theorem hofCode2_of : codeOf "t={}\nt[1]=5\nt[2]=6\nx=reduce(t,function(k,v,a){return a+v},100)" = .ok (some hofCode2) := codeS_eq (by decide +kernel)

theorem hofCode2_ends : playObj hofCode2 = .ok (.done, .none, some (.int 111)) := by decide +kernel

def hofCode3 : Bytes := [4, 0, 116, 0, 115, 0, 109, 97, 112, 0, 120, 0, 0, 37, 0, 0, 0, 0, 30, 29, 37, 0, 0, 0, 0, 28, 36, 1, 0, 0, 0, 36, 5, 0, 0, 0, 31, 37, 0, 0, 0, 0, 28, 36, 2, 0, 0, 0, 36, 6, 0, 0, 0, 31, 37, 1, 0, 0, 0, 2, 37, 2, 0, 0, 0, 28, 37, 0, 0, 0, 0, 28, 40, 103, 0, 0, 0, 36, 2, 0, 0, 0, 33, 29, 37, 3, 0, 0, 0, 37, 1, 0, 0, 0, 28, 36, 2, 0, 0, 0, 32, 29, 1, 41, 2, 0, 0, 0, 36, 2, 0, 0, 0, 9, 6, 5]

theorem hofCode3_of : codeOf "t={}\nt[1]=5\nt[2]=6\ns=map(t,function(k,v){return v*2})\nx=s[2]" = .ok (some hofCode3) := codeS_eq (by decide +kernel)

theorem hofCode3_ends : playObj hofCode3 = .ok (.done, .none, some (.int 12)) := by decide +kernel

def hofCode4 : Bytes := [5, 0, 116, 0, 115, 0, 102, 105, 108, 116, 101, 114, 0, 120, 0, 115, 105, 122, 101, 0, 0, 37, 0, 0, 0, 0, 30, 29, 37, 0, 0, 0, 0, 28, 36, 1, 0, 0, 0, 36, 5, 0, 0, 0, 31, 37, 0, 0, 0, 0, 28, 36, 2, 0, 0, 0, 36, 6, 0, 0, 0, 31, 37, 1, 0, 0, 0, 2, 37, 2, 0, 0, 0, 28, 37, 0, 0, 0, 0, 28, 40, 118, 0, 0, 0, 36, 2, 0, 0, 0, 33, 29, 37, 3, 0, 0, 0, 2, 37, 4, 0, 0, 0, 28, 37, 1, 0, 0, 0, 28, 36, 1, 0, 0, 0, 33, 29, 1, 41, 2, 0, 0, 0, 36, 5, 0, 0, 0, 24, 6, 5]

theorem hofCode4_of : codeOf "t={}\nt[1]=5\nt[2]=6\ns=filter(t,function(k,v){return v>5})\nx=size(s)" = .ok (some hofCode4) := codeS_eq (by decide +kernel)

theorem hofCode4_ends : playObj hofCode4 = .ok (.done, .none, some (.int 1)) := by decide +kernel

def hofCode11 : Bytes := [3, 0, 116, 0, 120, 0, 102, 111, 114, 101, 97, 99, 104, 0, 0, 37, 0, 0, 0, 0, 30, 29, 37, 1, 0, 0, 0, 36, 0, 0, 0, 0, 29, 37, 0, 0, 0, 0, 28, 36, 1, 0, 0, 0, 36, 5, 0, 0, 0, 31, 37, 0, 0, 0, 0, 28, 36, 2, 0, 0, 0, 36, 6, 0, 0, 0, 31, 2, 37, 2, 0, 0, 0, 28, 37, 0, 0, 0, 0, 28, 40, 93, 0, 0, 0, 36, 2, 0, 0, 0, 33, 4, 1, 2, 37, 2, 0, 0, 0, 28, 37, 0, 0, 0, 0, 28, 40, 119, 0, 0, 0, 36, 2, 0, 0, 0, 33, 4, 5, 37, 1, 0, 0, 0, 37, 1, 0, 0, 0, 28, 36, 1, 0, 0, 0, 7, 29, 5]

theorem hofCode11_of : codeOf "t={}\nx=0\nt[1]=5\nt[2]=6\nforeach(t,function(k,v){foreach(t,function(a,b){x=x+1})})" = .ok (some hofCode11) := codeS_eq (by decide +kernel)

theorem hofCode11_ends : playObj hofCode11 = .ok (.done, .none, some (.int 4)) := by decide +kernel

/-- Scripts with `foreach`, `reduce`, `map`, `filter` and a `foreach` within a `foreach`, compiled and run. -/
theorem C77_runs : BehavesObj "t={}\nx=0\nt[1]=5\nt[2]=6\nforeach(t,function(k,v){x=x*100+v})" (.ok (.done, .none, some (.int 506))) ∧
    BehavesObj "t={}\nt[1]=5\nt[2]=6\nx=reduce(t,function(k,v,a){return a+v},100)" (.ok (.done, .none, some (.int 111))) ∧
    BehavesObj "t={}\nt[1]=5\nt[2]=6\ns=map(t,function(k,v){return v*2})\nx=s[2]" (.ok (.done, .none, some (.int 12))) ∧
    BehavesObj "t={}\nt[1]=5\nt[2]=6\ns=filter(t,function(k,v){return v>5})\nx=size(s)" (.ok (.done, .none, some (.int 1))) ∧
    BehavesObj "t={}\nx=0\nt[1]=5\nt[2]=6\nforeach(t,function(k,v){foreach(t,function(a,b){x=x+1})})" (.ok (.done, .none, some (.int 4))) :=
  ⟨⟨_, hofCode1_of, hofCode1_ends⟩, ⟨_, hofCode2_of, hofCode2_ends⟩, ⟨_, hofCode3_of, hofCode3_ends⟩, ⟨_, hofCode4_of, hofCode4_ends⟩, ⟨_, hofCode11_of, hofCode11_ends⟩⟩

def hofCode10 : Bytes := [4, 0, 116, 0, 120, 0, 102, 111, 114, 101, 97, 99, 104, 0, 108, 111, 103, 0, 0, 37, 0, 0, 0, 0, 30, 29, 37, 1, 0, 0, 0, 36, 0, 0, 0, 0, 29, 37, 0, 0, 0, 0, 28, 36, 1, 0, 0, 0, 36, 5, 0, 0, 0, 31, 37, 0, 0, 0, 0, 28, 36, 2, 0, 0, 0, 36, 6, 0, 0, 0, 31, 2, 37, 2, 0, 0, 0, 28, 37, 0, 0, 0, 0, 28, 40, 97, 0, 0, 0, 36, 2, 0, 0, 0, 33, 4, 1, 37, 1, 0, 0, 0, 37, 1, 0, 0, 0, 28, 36, 1, 0, 0, 0, 7, 29, 2, 37, 3, 0, 0, 0, 28, 41, 1, 0, 0, 0, 36, 1, 0, 0, 0, 33, 4, 5]

theorem hofCode10_of : codeOf "t={}\nx=0\nt[1]=5\nt[2]=6\nforeach(t,function(k,v){x=x+1\nlog(k)})" = .ok (some hofCode10) := codeS_eq (by decide +kernel)

theorem hofCode10_ends : playObj hofCode10 = .ok (.error, .type, some (.int 1)) := by decide +kernel

/-- After a call that fails there are no further calls: `log` is nil here. -/
theorem C77_error : BehavesObj "t={}\nx=0\nt[1]=5\nt[2]=6\nforeach(t,function(k,v){x=x+1\nlog(k)})" (.ok (.error, .type, some (.int 1))) :=
  ⟨_, hofCode10_of, hofCode10_ends⟩

def hofCode5 : Bytes := [2, 0, 116, 0, 102, 111, 114, 101, 97, 99, 104, 0, 0, 37, 0, 0, 0, 0, 30, 29, 37, 0, 0, 0, 0, 28, 36, 1, 0, 0, 0, 36, 5, 0, 0, 0, 31, 2, 37, 1, 0, 0, 0, 28, 37, 0, 0, 0, 0, 28, 40, 63, 0, 0, 0, 36, 2, 0, 0, 0, 33, 4, 1, 37, 0, 0, 0, 0, 28, 41, 1, 0, 0, 0, 2, 31, 5]

theorem hofCode5_of : codeOf "t={}\nt[1]=5\nforeach(t,function(k,v){t[k]=nil})" = .ok (some hofCode5) := codeS_eq (by decide +kernel)

theorem hofCode5_ends : playObj hofCode5 = .ub := by decide +kernel

def hofCode6 : Bytes := [3, 0, 116, 0, 120, 0, 102, 111, 114, 101, 97, 99, 104, 0, 0, 37, 0, 0, 0, 0, 30, 29, 37, 1, 0, 0, 0, 36, 0, 0, 0, 0, 29, 37, 0, 0, 0, 0, 28, 36, 1, 0, 0, 0, 36, 5, 0, 0, 0, 31, 37, 0, 0, 0, 0, 28, 36, 11, 0, 0, 0, 36, 6, 0, 0, 0, 31, 2, 37, 2, 0, 0, 0, 28, 37, 0, 0, 0, 0, 28, 40, 93, 0, 0, 0, 36, 2, 0, 0, 0, 33, 4, 1, 37, 0, 0, 0, 0, 28, 41, 1, 0, 0, 0, 2, 31, 37, 1, 0, 0, 0, 37, 1, 0, 0, 0, 28, 36, 1, 0, 0, 0, 7, 29, 5]

theorem hofCode6_of : codeOf "t={}\nx=0\nt[1]=5\nt[11]=6\nforeach(t,function(k,v){t[k]=nil\nx=x+1})" = .ok (some hofCode6) := codeS_eq (by decide +kernel)

theorem hofCode6_ends : playObj hofCode6 = .ok (.done, .none, some (.int 1)) := by decide +kernel

def hofCode9 : Bytes := [3, 0, 116, 0, 115, 0, 109, 97, 112, 0, 0, 37, 0, 0, 0, 0, 30, 29, 37, 0, 0, 0, 0, 28, 36, 1, 0, 0, 0, 36, 5, 0, 0, 0, 31, 37, 0, 0, 0, 0, 28, 36, 11, 0, 0, 0, 36, 6, 0, 0, 0, 31, 37, 1, 0, 0, 0, 2, 37, 2, 0, 0, 0, 28, 37, 0, 0, 0, 0, 28, 40, 83, 0, 0, 0, 36, 2, 0, 0, 0, 33, 29, 1, 37, 0, 0, 0, 0, 28, 41, 1, 0, 0, 0, 2, 31, 36, 1, 0, 0, 0, 6, 5]

theorem hofCode9_of : codeOf "t={}\nt[1]=5\nt[11]=6\ns=map(t,function(k,v){t[k]=nil\nreturn 1})" = .ok (some hofCode9) := codeS_eq (by decide +kernel)

theorem hofCode9_ends : playObj hofCode9 = .ub := by decide +kernel

/-- **A defect**: a callback must not remove entries.  Removing the only entry of a bucket is undefined (the bucket is read after it has been freed); if there are two, the second
one is skipped; and `map` uses the key of the removed entry. -/
theorem C77_removing : BehavesObj "t={}\nt[1]=5\nforeach(t,function(k,v){t[k]=nil})" (.ub) ∧
    BehavesObj "t={}\nx=0\nt[1]=5\nt[11]=6\nforeach(t,function(k,v){t[k]=nil\nx=x+1})" (.ok (.done, .none, some (.int 1))) ∧
    BehavesObj "t={}\nt[1]=5\nt[11]=6\ns=map(t,function(k,v){t[k]=nil\nreturn 1})" (.ub) :=
  ⟨⟨_, hofCode5_of, hofCode5_ends⟩, ⟨_, hofCode6_of, hofCode6_ends⟩, ⟨_, hofCode9_of, hofCode9_ends⟩⟩

def hofCode7 : Bytes := [3, 0, 116, 0, 120, 0, 102, 111, 114, 101, 97, 99, 104, 0, 0, 37, 0, 0, 0, 0, 30, 29, 37, 1, 0, 0, 0, 36, 0, 0, 0, 0, 29, 37, 0, 0, 0, 0, 28, 36, 1, 0, 0, 0, 36, 5, 0, 0, 0, 31, 2, 37, 2, 0, 0, 0, 28, 37, 0, 0, 0, 0, 28, 40, 76, 0, 0, 0, 36, 2, 0, 0, 0, 33, 4, 1, 41, 1, 0, 0, 0, 36, 3, 0, 0, 0, 26, 45, 115, 0, 0, 0, 37, 0, 0, 0, 0, 28, 41, 1, 0, 0, 0, 36, 1, 0, 0, 0, 7, 36, 0, 0, 0, 0, 31, 37, 1, 0, 0, 0, 37, 1, 0, 0, 0, 28, 36, 1, 0, 0, 0, 7, 29, 5]

theorem hofCode7_of : codeOf "t={}\nx=0\nt[1]=5\nforeach(t,function(k,v){if(k<3){t[k+1]=0}\nx=x+1})" = .ok (some hofCode7) := codeS_eq (by decide +kernel)

theorem hofCode7_ends : playObj hofCode7 = .ok (.done, .none, some (.int 3)) := by decide +kernel

/-- Entries added by a callback behind the current one are visited as well. -/
theorem C77_adding : BehavesObj "t={}\nx=0\nt[1]=5\nforeach(t,function(k,v){if(k<3){t[k+1]=0}\nx=x+1})" (.ok (.done, .none, some (.int 3))) :=
  ⟨_, hofCode7_of, hofCode7_ends⟩

def hofCode8 : Bytes := [3, 0, 116, 0, 120, 0, 102, 111, 114, 101, 97, 99, 104, 0, 0, 37, 0, 0, 0, 0, 30, 29, 37, 1, 0, 0, 0, 36, 0, 0, 0, 0, 29, 37, 0, 0, 0, 0, 28, 36, 1, 0, 0, 0, 36, 5, 0, 0, 0, 31, 37, 0, 0, 0, 0, 28, 36, 11, 0, 0, 0, 36, 6, 0, 0, 0, 31, 2, 37, 2, 0, 0, 0, 28, 37, 0, 0, 0, 0, 28, 40, 93, 0, 0, 0, 36, 2, 0, 0, 0, 33, 4, 1, 37, 0, 0, 0, 0, 28, 41, 1, 0, 0, 0, 41, 2, 0, 0, 0, 31, 37, 1, 0, 0, 0, 37, 1, 0, 0, 0, 28, 36, 100, 0, 0, 0, 9, 41, 1, 0, 0, 0, 7, 29, 5]

theorem hofCode8_of : codeOf "t={}\nx=0\nt[1]=5\nt[11]=6\nforeach(t,function(k,v){t[k]=v\nx=x*100+k})" = .ok (some hofCode8) := codeS_eq (by decide +kernel)

theorem hofCode8_ends : playObj hofCode8 = .ok (.done, .none, some (.int 101)) := by decide +kernel

/-- **A defect**: assigning to the entry visited moves it to the end of its bucket: it is visited again, and the other entry of the bucket is not visited. -/
theorem C77_assigning : BehavesObj "t={}\nx=0\nt[1]=5\nt[11]=6\nforeach(t,function(k,v){t[k]=v\nx=x*100+k})" (.ok (.done, .none, some (.int 101))) :=
  ⟨_, hofCode8_of, hofCode8_ends⟩

/-- The hypotheses of the theorems hold of a machine that has entered `map({1: 5}, f)`, with the library as C functions. -/
example : ∃ (F : CFuns) (vm : VM) (ta ca : Nat) (t : Table.Tbl (Nat × Nat)), FOk F ∧ FHome F ∧ FApart F ∧ FFirm F ∧ Entry vm [ta, ca] ∧ Holds vm.heap ta (.tab t) ∧
    Holds vm.heap ca (.clo true 2 [0]) ∧ Table.Homog someEnv.sc (fun k => ∃ n, k = .int n) ∧ Dict.WF Table.hashN Table.eqd t ∧ Table.Keys (fun k => ∃ n, k = .int n) t ∧
    Dict.entries t = [(.int 1, (2, 3))] := by
  have i2 := (VM.new_inv.push (c := .atom .nil) trivial).push (c := .atom .nil) trivial
  have i4 := i2.push (c := .atom (.int 1)) (by show I32 1; unfold I32; decide)
  have i5 := (i4.push (c := .atom (.int 5)) (by show I32 5; unfold I32; decide)).popN 2
  obtain ⟨t, h1, h2, h3, h4⟩ := Table.put_spec (V := Nat × Nat) (C13_int_keys someEnv.sc) (t := Table.new) (Dict.new_wf (by decide))
    (fun e he => by simp [Table.new, Dict.entries_new] at he) (k := .int 1) ⟨1, rfl⟩ (some (2, 3))
  have hent : Dict.entries t = [(.int 1, (2, 3))] := by
    have : Dict.entries (Table.new : Table.Tbl (Nat × Nat)) = [] := by simp [Table.new, Dict.entries_new]
    rw [this] at h4
    exact List.perm_singleton.mp h4
  have i6 := i5.push (c := .tab t) ⟨Nat.pos_iff_ne_zero.mp h2.pos, fun e he => by
    rw [hent, List.mem_singleton] at he
    subst he
    exact ⟨rfl, by simp [Obj.tableHash], ⟨_, rfl, rfl⟩, ⟨_, ⟨_, rfl, rfl⟩⟩⟩⟩
  have i7 := i6.push (c := .clo true 2 [0]) ⟨by unfold I32; decide, by
    intro a ha
    simp only [List.mem_singleton] at ha
    subst ha
    exact ⟨.atom .nil, ⟨_, rfl, rfl⟩⟩⟩
  have i8 : VInv { VM.push (VM.push (VM.popN (VM.push (VM.push (VM.push (VM.push VM.new (.atom .nil)) (.atom .nil)) (.atom (.int 1))) (.atom (.int 5))) 2) (.tab t))
      (.clo true 2 [0]) with state := .ready } := { i7 with depth := fun _ => i7.depth (by simp [VM.push, VM.popN, VM.new]) }
  have e := entry_of_call (n := 2) (actrec := [0]) (sw := false) i8 rfl (by
    intro a ha
    simp only [List.mem_singleton] at ha
    subst ha
    exact ⟨.atom .nil, ⟨_, rfl, rfl⟩⟩) rfl
  exact ⟨_, _, 4, 5, t, std_all (E := someEnv).1, std_all.2.1, std_all.2.2.1, std_all.2.2.2, e, ⟨_, rfl, rfl⟩, ⟨_, rfl, rfl⟩, C13_int_keys someEnv.sc, h2, h3, hent⟩

end Buzz.Props
