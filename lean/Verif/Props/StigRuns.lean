import Verif.Props.NbrRuns
import Verif.Props.StigForeach

/-
Scripts with `foreach` of a virtual stigmergy, compiled and run by the model (C79).
-/
namespace Buzz.Props

open Buzz.F32 Buzz.Msg Buzz.Heap Buzz.Value Buzz.VM Buzz.HeapWire

/-- The library with all functions of virtual stigmergies; a callback can call them again. -/
def stigLib : CFuns := stigAllFuns someEnv 7 70 100 (Sim.stdFuns someEnv Props.noFuns) 2

/-- How bytecode ends on robot 7 with the table `stigmergy`: state, error and the value of the variable `x`. -/
def playStig (code : Bytes) : Res (VM.State × VM.Err × Option Obj) := do
  let vm ← VM.load someEnv code VM.new
  let vm ← boot someEnv stigLib 200 vm
  let vm ← cmds someEnv 7 regStig ({ vm with nfuns := 27 }, 0)
  let vm ← VM.run someEnv stigLib 600 vm.1
  .ok (vm.state, vm.error, globalAt vm [120])

/-- A text is compiled, and its bytecode ends like this. -/
def BehavesStig (text : String) (r : Res (VM.State × VM.Err × Option Obj)) : Prop := ∃ code, codeOf text = .ok (some code) ∧ playStig code = r

def sfCode1 : Bytes := [6, 0, 115, 0, 115, 116, 105, 103, 109, 101, 114, 103, 121, 0, 99, 114, 101, 97, 116, 101, 0, 120, 0, 112, 117, 116, 0, 102, 111, 114, 101, 97, 99, 104, 0, 0, 37, 0, 0, 0, 0, 37, 1, 0, 0, 0, 28, 3, 37, 2, 0, 0, 0, 32, 36, 1, 0, 0, 0, 36, 1, 0, 0, 0, 33, 29, 37, 3, 0, 0, 0, 36, 0, 0, 0, 0, 29, 37, 0, 0, 0, 0, 28, 3, 37, 4, 0, 0, 0, 32, 36, 1, 0, 0, 0, 36, 5, 0, 0, 0, 36, 2, 0, 0, 0, 33, 4, 37, 0, 0, 0, 0, 28, 3, 37, 4, 0, 0, 0, 32, 36, 2, 0, 0, 0, 36, 6, 0, 0, 0, 36, 2, 0, 0, 0, 33, 4, 37, 0, 0, 0, 0, 28, 3, 37, 5, 0, 0, 0, 32, 40, 163, 0, 0, 0, 36, 1, 0, 0, 0, 33, 4, 1, 37, 3, 0, 0, 0, 37, 3, 0, 0, 0, 28, 36, 232, 3, 0, 0, 9, 41, 1, 0, 0, 0, 36, 100, 0, 0, 0, 9, 7, 41, 2, 0, 0, 0, 36, 10, 0, 0, 0, 9, 7, 41, 3, 0, 0, 0, 7, 29, 5]

theorem sfCode1_of : codeOf "s=stigmergy.create(1)\nx=0\ns.put(1,5)\ns.put(2,6)\ns.foreach(function(k,v,r){x=x*1000+k*100+v*10+r})" = .ok (some sfCode1) := codeS_eq (by decide +kernel)

theorem sfCode1_ends : playStig sfCode1 = .ok (.done, .none, some (.int 157267)) := by decide +kernel

def sfCode2 : Bytes := [6, 0, 115, 0, 115, 116, 105, 103, 109, 101, 114, 103, 121, 0, 99, 114, 101, 97, 116, 101, 0, 120, 0, 112, 117, 116, 0, 102, 111, 114, 101, 97, 99, 104, 0, 0, 37, 0, 0, 0, 0, 37, 1, 0, 0, 0, 28, 3, 37, 2, 0, 0, 0, 32, 36, 1, 0, 0, 0, 36, 1, 0, 0, 0, 33, 29, 37, 3, 0, 0, 0, 36, 0, 0, 0, 0, 29, 37, 0, 0, 0, 0, 28, 3, 37, 4, 0, 0, 0, 32, 36, 1, 0, 0, 0, 36, 5, 0, 0, 0, 36, 2, 0, 0, 0, 33, 4, 37, 0, 0, 0, 0, 28, 3, 37, 4, 0, 0, 0, 32, 36, 2, 0, 0, 0, 36, 6, 0, 0, 0, 36, 2, 0, 0, 0, 33, 4, 37, 0, 0, 0, 0, 28, 3, 37, 5, 0, 0, 0, 32, 40, 163, 0, 0, 0, 36, 1, 0, 0, 0, 33, 4, 1, 37, 0, 0, 0, 0, 28, 3, 37, 5, 0, 0, 0, 32, 40, 189, 0, 0, 0, 36, 1, 0, 0, 0, 33, 4, 5, 37, 3, 0, 0, 0, 37, 3, 0, 0, 0, 28, 36, 1, 0, 0, 0, 7, 29, 5]

theorem sfCode2_of : codeOf "s=stigmergy.create(1)\nx=0\ns.put(1,5)\ns.put(2,6)\ns.foreach(function(k,v,r){s.foreach(function(a,b,c){x=x+1})})" = .ok (some sfCode2) := codeS_eq (by decide +kernel)

theorem sfCode2_ends : playStig sfCode2 = .ok (.done, .none, some (.int 4)) := by decide +kernel

def sfCode3 : Bytes := [5, 0, 115, 0, 115, 116, 105, 103, 109, 101, 114, 103, 121, 0, 99, 114, 101, 97, 116, 101, 0, 112, 117, 116, 0, 102, 111, 114, 101, 97, 99, 104, 0, 0, 37, 0, 0, 0, 0, 37, 1, 0, 0, 0, 28, 3, 37, 2, 0, 0, 0, 32, 36, 1, 0, 0, 0, 36, 1, 0, 0, 0, 33, 29, 37, 0, 0, 0, 0, 28, 3, 37, 3, 0, 0, 0, 32, 36, 1, 0, 0, 0, 36, 5, 0, 0, 0, 36, 2, 0, 0, 0, 33, 4, 37, 0, 0, 0, 0, 28, 3, 37, 4, 0, 0, 0, 32, 40, 120, 0, 0, 0, 36, 1, 0, 0, 0, 33, 4, 1, 37, 0, 0, 0, 0, 28, 3, 37, 3, 0, 0, 0, 32, 41, 1, 0, 0, 0, 2, 36, 2, 0, 0, 0, 33, 4, 5]

theorem sfCode3_of : codeOf "s=stigmergy.create(1)\ns.put(1,5)\ns.foreach(function(k,v,r){s.put(k,nil)})" = .ok (some sfCode3) := codeS_eq (by decide +kernel)

theorem sfCode3_ends : playStig sfCode3 = .ub := by decide +kernel

def sfCode4 : Bytes := [5, 0, 115, 0, 115, 116, 105, 103, 109, 101, 114, 103, 121, 0, 99, 114, 101, 97, 116, 101, 0, 112, 117, 116, 0, 102, 111, 114, 101, 97, 99, 104, 0, 0, 37, 0, 0, 0, 0, 37, 1, 0, 0, 0, 28, 3, 37, 2, 0, 0, 0, 32, 36, 1, 0, 0, 0, 36, 1, 0, 0, 0, 33, 29, 37, 0, 0, 0, 0, 28, 3, 37, 3, 0, 0, 0, 32, 36, 1, 0, 0, 0, 36, 5, 0, 0, 0, 36, 2, 0, 0, 0, 33, 4, 37, 0, 0, 0, 0, 28, 3, 37, 4, 0, 0, 0, 32, 40, 120, 0, 0, 0, 36, 1, 0, 0, 0, 33, 4, 1, 37, 1, 0, 0, 0, 28, 3, 37, 2, 0, 0, 0, 32, 36, 1, 0, 0, 0, 36, 1, 0, 0, 0, 33, 4, 5]

theorem sfCode4_of : codeOf "s=stigmergy.create(1)\ns.put(1,5)\ns.foreach(function(k,v,r){stigmergy.create(1)})" = .ok (some sfCode4) := codeS_eq (by decide +kernel)

theorem sfCode4_ends : playStig sfCode4 = .ub := by decide +kernel

def sfCode5 : Bytes := [6, 0, 115, 0, 115, 116, 105, 103, 109, 101, 114, 103, 121, 0, 99, 114, 101, 97, 116, 101, 0, 120, 0, 112, 117, 116, 0, 102, 111, 114, 101, 97, 99, 104, 0, 0, 37, 0, 0, 0, 0, 37, 1, 0, 0, 0, 28, 3, 37, 2, 0, 0, 0, 32, 36, 1, 0, 0, 0, 36, 1, 0, 0, 0, 33, 29, 37, 3, 0, 0, 0, 36, 0, 0, 0, 0, 29, 37, 0, 0, 0, 0, 28, 3, 37, 4, 0, 0, 0, 32, 36, 1, 0, 0, 0, 36, 5, 0, 0, 0, 36, 2, 0, 0, 0, 33, 4, 37, 0, 0, 0, 0, 28, 3, 37, 4, 0, 0, 0, 32, 36, 11, 0, 0, 0, 36, 6, 0, 0, 0, 36, 2, 0, 0, 0, 33, 4, 37, 0, 0, 0, 0, 28, 3, 37, 5, 0, 0, 0, 32, 40, 163, 0, 0, 0, 36, 1, 0, 0, 0, 33, 4, 1, 37, 0, 0, 0, 0, 28, 3, 37, 4, 0, 0, 0, 32, 41, 1, 0, 0, 0, 2, 36, 2, 0, 0, 0, 33, 4, 37, 3, 0, 0, 0, 37, 3, 0, 0, 0, 28, 36, 1, 0, 0, 0, 7, 29, 5]

theorem sfCode5_of : codeOf "s=stigmergy.create(1)\nx=0\ns.put(1,5)\ns.put(11,6)\ns.foreach(function(k,v,r){s.put(k,nil)\nx=x+1})" = .ok (some sfCode5) := codeS_eq (by decide +kernel)

theorem sfCode5_ends : playStig sfCode5 = .ok (.done, .none, some (.int 1)) := by decide +kernel

def sfCode6 : Bytes := [6, 0, 115, 0, 115, 116, 105, 103, 109, 101, 114, 103, 121, 0, 99, 114, 101, 97, 116, 101, 0, 120, 0, 112, 117, 116, 0, 102, 111, 114, 101, 97, 99, 104, 0, 0, 37, 0, 0, 0, 0, 37, 1, 0, 0, 0, 28, 3, 37, 2, 0, 0, 0, 32, 36, 1, 0, 0, 0, 36, 1, 0, 0, 0, 33, 29, 37, 3, 0, 0, 0, 36, 0, 0, 0, 0, 29, 37, 0, 0, 0, 0, 28, 3, 37, 4, 0, 0, 0, 32, 36, 1, 0, 0, 0, 36, 5, 0, 0, 0, 36, 2, 0, 0, 0, 33, 4, 37, 0, 0, 0, 0, 28, 3, 37, 4, 0, 0, 0, 32, 36, 2, 0, 0, 0, 36, 6, 0, 0, 0, 36, 2, 0, 0, 0, 33, 4, 37, 0, 0, 0, 0, 28, 3, 37, 5, 0, 0, 0, 32, 40, 163, 0, 0, 0, 36, 1, 0, 0, 0, 33, 4, 1, 37, 0, 0, 0, 0, 28, 3, 37, 4, 0, 0, 0, 32, 41, 1, 0, 0, 0, 41, 2, 0, 0, 0, 36, 1, 0, 0, 0, 7, 36, 2, 0, 0, 0, 33, 4, 37, 3, 0, 0, 0, 37, 3, 0, 0, 0, 28, 36, 100, 0, 0, 0, 9, 41, 2, 0, 0, 0, 7, 29, 5]

theorem sfCode6_of : codeOf "s=stigmergy.create(1)\nx=0\ns.put(1,5)\ns.put(2,6)\ns.foreach(function(k,v,r){s.put(k,v+1)\nx=x*100+v})" = .ok (some sfCode6) := codeS_eq (by decide +kernel)

theorem sfCode6_ends : playStig sfCode6 = .ok (.done, .none, some (.int 506)) := by decide +kernel

def sfCode7 : Bytes := [7, 0, 115, 0, 115, 116, 105, 103, 109, 101, 114, 103, 121, 0, 99, 114, 101, 97, 116, 101, 0, 120, 0, 112, 117, 116, 0, 102, 111, 114, 101, 97, 99, 104, 0, 108, 111, 103, 0, 0, 37, 0, 0, 0, 0, 37, 1, 0, 0, 0, 28, 3, 37, 2, 0, 0, 0, 32, 36, 1, 0, 0, 0, 36, 1, 0, 0, 0, 33, 29, 37, 3, 0, 0, 0, 36, 0, 0, 0, 0, 29, 37, 0, 0, 0, 0, 28, 3, 37, 4, 0, 0, 0, 32, 36, 1, 0, 0, 0, 36, 5, 0, 0, 0, 36, 2, 0, 0, 0, 33, 4, 37, 0, 0, 0, 0, 28, 3, 37, 4, 0, 0, 0, 32, 36, 2, 0, 0, 0, 36, 6, 0, 0, 0, 36, 2, 0, 0, 0, 33, 4, 37, 0, 0, 0, 0, 28, 3, 37, 5, 0, 0, 0, 32, 40, 167, 0, 0, 0, 36, 1, 0, 0, 0, 33, 4, 1, 37, 3, 0, 0, 0, 37, 3, 0, 0, 0, 28, 36, 1, 0, 0, 0, 7, 29, 2, 37, 6, 0, 0, 0, 28, 41, 1, 0, 0, 0, 36, 1, 0, 0, 0, 33, 4, 5]

theorem sfCode7_of : codeOf "s=stigmergy.create(1)\nx=0\ns.put(1,5)\ns.put(2,6)\ns.foreach(function(k,v,r){x=x+1\nlog(k)})" = .ok (some sfCode7) := codeS_eq (by decide +kernel)

theorem sfCode7_ends : playStig sfCode7 = .ok (.error, .type, some (.int 1)) := by decide +kernel

def sfCode8 : Bytes := [6, 0, 115, 0, 115, 116, 105, 103, 109, 101, 114, 103, 121, 0, 99, 114, 101, 97, 116, 101, 0, 120, 0, 112, 117, 116, 0, 102, 111, 114, 101, 97, 99, 104, 0, 0, 37, 0, 0, 0, 0, 37, 1, 0, 0, 0, 28, 3, 37, 2, 0, 0, 0, 32, 36, 1, 0, 0, 0, 36, 1, 0, 0, 0, 33, 29, 37, 3, 0, 0, 0, 36, 0, 0, 0, 0, 29, 37, 0, 0, 0, 0, 28, 3, 37, 4, 0, 0, 0, 32, 36, 1, 0, 0, 0, 36, 5, 0, 0, 0, 36, 2, 0, 0, 0, 33, 4, 37, 0, 0, 0, 0, 28, 3, 37, 5, 0, 0, 0, 32, 40, 133, 0, 0, 0, 36, 1, 0, 0, 0, 33, 4, 1, 41, 1, 0, 0, 0, 36, 3, 0, 0, 0, 26, 45, 185, 0, 0, 0, 37, 0, 0, 0, 0, 28, 3, 37, 4, 0, 0, 0, 32, 41, 1, 0, 0, 0, 36, 1, 0, 0, 0, 7, 36, 0, 0, 0, 0, 36, 2, 0, 0, 0, 33, 4, 37, 3, 0, 0, 0, 37, 3, 0, 0, 0, 28, 36, 1, 0, 0, 0, 7, 29, 5]

theorem sfCode8_of : codeOf "s=stigmergy.create(1)\nx=0\ns.put(1,5)\ns.foreach(function(k,v,r){if(k<3){s.put(k+1,0)}\nx=x+1})" = .ok (some sfCode8) := codeS_eq (by decide +kernel)

theorem sfCode8_ends : playStig sfCode8 = .ok (.done, .none, some (.int 3)) := by decide +kernel

/-- Entries are given to the callback with key, value and robot, and a callback can call `foreach` again. -/
theorem C79_runs : BehavesStig "s=stigmergy.create(1)\nx=0\ns.put(1,5)\ns.put(2,6)\ns.foreach(function(k,v,r){x=x*1000+k*100+v*10+r})" (.ok (.done, .none, some (.int 157267))) ∧
    BehavesStig "s=stigmergy.create(1)\nx=0\ns.put(1,5)\ns.put(2,6)\ns.foreach(function(k,v,r){s.foreach(function(a,b,c){x=x+1})})" (.ok (.done, .none, some (.int 4))) :=
  ⟨⟨_, sfCode1_of, sfCode1_ends⟩, ⟨_, sfCode2_of, sfCode2_ends⟩⟩

/-- A callback may give a new value to the entry it is called for, and may add entries, which can be visited too. -/
theorem C79_changing : BehavesStig "s=stigmergy.create(1)\nx=0\ns.put(1,5)\ns.put(2,6)\ns.foreach(function(k,v,r){s.put(k,v+1)\nx=x*100+v})" (.ok (.done, .none, some (.int 506))) ∧
    BehavesStig "s=stigmergy.create(1)\nx=0\ns.put(1,5)\ns.foreach(function(k,v,r){if(k<3){s.put(k+1,0)}\nx=x+1})" (.ok (.done, .none, some (.int 3))) :=
  ⟨⟨_, sfCode6_of, sfCode6_ends⟩, ⟨_, sfCode8_of, sfCode8_ends⟩⟩

/-- An error in the callback stops the script; no further call. -/
theorem C79_error : BehavesStig "s=stigmergy.create(1)\nx=0\ns.put(1,5)\ns.put(2,6)\ns.foreach(function(k,v,r){x=x+1\nlog(k)})" (.ok (.error, .type, some (.int 1))) :=
  ⟨_, sfCode7_of, sfCode7_ends⟩

/-- **A defect**: a callback must not remove an entry or create the stigmergy again: the loop goes on with memory that has been freed, or leaves out an entry. -/
theorem C79_removing : BehavesStig "s=stigmergy.create(1)\ns.put(1,5)\ns.foreach(function(k,v,r){s.put(k,nil)})" (.ub) ∧
    BehavesStig "s=stigmergy.create(1)\ns.put(1,5)\ns.foreach(function(k,v,r){stigmergy.create(1)})" (.ub) ∧
    BehavesStig "s=stigmergy.create(1)\nx=0\ns.put(1,5)\ns.put(11,6)\ns.foreach(function(k,v,r){s.put(k,nil)\nx=x+1})" (.ok (.done, .none, some (.int 1))) :=
  ⟨⟨_, sfCode3_of, sfCode3_ends⟩, ⟨_, sfCode4_of, sfCode4_ends⟩, ⟨_, sfCode5_of, sfCode5_ends⟩⟩

/-- A machine that has entered a method of a stigmergy with the number 1 and one entry, the value 1 under the key 1 written by robot 7; argument is a function of the script. -/
theorem stig_method : ∃ (vm : VM) (obj : Nat) (t : Table.Tbl VElem), Method vm obj [1] ∧ HasId someEnv vm obj 1 ∧ StigHas vm 1 t ∧ Dict.entries t = [(.int 1, ⟨0, 0, 1, 7⟩)] ∧
    Holds vm.heap 1 (.clo true 2 [0]) ∧ vm.strings.id2str.length ≤ 65533 := by
  have i1 := VM.new_inv.push (c := .atom (.int 1)) (by show I32 1; unfold I32; decide)
  have i2 := i1.push (c := .clo true 2 [0]) ⟨by unfold I32; decide, by
    intro a ha
    simp only [List.mem_singleton] at ha
    subst ha
    exact ⟨.atom (.int 1), ⟨_, rfl, rfl⟩⟩⟩
  obtain ⟨t, h1, h2, h3, h4⟩ := Table.put_spec (V := VElem) (C13_int_keys someEnv.sc) (t := Table.new) (Dict.new_wf (by decide))
    (fun e he => by simp [Table.new, Dict.entries_new] at he) (k := .int 1) ⟨1, rfl⟩ (some ⟨0, 0, 1, 7⟩)
  have hent : Dict.entries t = [(.int 1, ⟨0, 0, 1, 7⟩)] := by
    have : Dict.entries (Table.new : Table.Tbl VElem) = [] := by simp [Table.new, Dict.entries_new]
    rw [this] at h4
    exact List.perm_singleton.mp h4
  have i3 : VInv { VM.push (VM.push VM.new (.atom (.int 1))) (.clo true 2 [0]) with state := .ready, other := { VM.new.other with vstigs := [(1, ⟨t, none, none⟩)] } } :=
    { i2 with
      depth := fun _ => i2.depth (by simp [VM.push, VM.new])
      other := { i2.other with
        vstigs := fun e he => by
          cases List.mem_singleton.mp he
          refine ⟨by simp, by simp, fun x hx => ?_⟩
          rw [hent, List.mem_singleton] at hx
          subst hx
          exact ⟨⟨_, ⟨_, rfl, rfl⟩⟩, ⟨_, ⟨_, rfl, rfl⟩⟩⟩ } }
  generalize hv : ({ VM.push (VM.push VM.new (.atom (.int 1))) (.clo true 2 [0]) with state := .ready, other := { VM.new.other with vstigs := [(1, ⟨t, none, none⟩)] } } : VM) = v at i3
  have l1 : Holds v.heap 1 (.clo true 2 [0]) := by rw [← hv]; exact ⟨_, rfl, rfl⟩
  have lr : v.state = .ready := by rw [← hv]
  have ls : v.stack = [1, 0] := by rw [← hv]; rfl
  have lz : v.strings.id2str.length = 0 := by rw [← hv]; rfl
  have lo : FMap.get v.other.vstigs 1 = some ⟨t, none, none⟩ := by rw [← hv]; rfl
  have m0 := NMaking.start i3 _ rfl
  obtain ⟨u, j, e1, m1, s1, k1, g1, z1, o1, n1⟩ := (m0.addr ⟨_, m0.tab⟩).name "id" (show v.strings.id2str.length ≤ 65533 by omega)
  have iu := m1.prep.inv
  have m2 : NMaking v (VM.push u (.atom (.int 1))) _ _ _ := m1.grow ⟨rfl, .inl rfl, fun a c h => holds_old iu.heap h, fun _ _ h => h, iu.push (c := .atom (.int 1)) (by show I32 1; unfold I32; decide)⟩ (by
    intro a c h
    rcases holds_newobj h with h | ⟨_, rfl⟩
    · exact .inl h
    · exact .inr fun b hb => by simp [children] at hb)
  have fr : ∀ d, ¬ Holds u.heap u.heap.brk d := fun d h => new_fresh iu.heap (.atom .nil) d h
  obtain ⟨h', t', oa, f1, f2, f3, f4, f5⟩ := m2.put (E := someEnv) Obj.strcmpDiff_law (x := "id") (by decide) (by simp) (vc := .atom (.int 1)) (va := u.heap.brk) (st := v.stack) (j := j)
    (by show _ :: u.stack = _; rw [s1]; rfl) g1 (holds_old iu.heap k1) (holds_new iu.heap _) (by simp) (fun h => fr _ (h ▸ m1.tab)) (fun _ => ⟨fun a c h hb => by
      have : Live u.heap u.heap.brk := by
        rcases holds_newobj h with h | ⟨_, rfl⟩
        · exact holds_isSome.mp ((iu.cells a c h).children _ hb)
        · simp [children] at hb
      obtain ⟨d, hd⟩ := this
      exact fr d hd, fun c h => fr c (m1.prep.heap _ _ h)⟩)
  have := f4 (fun _ _ _ h => by cases h)
  subst this
  have p := f2.prep
  have iw := p.inv
  generalize hw : ({ VM.push u (.atom (.int 1)) with stack := v.stack, heap := h' } : VM) = w at *
  have st : w.stack = [1, 0] := by rw [← hw]; exact ls
  have hh : ∀ a c, Holds w.heap a c → Holds (enter w 1 [(newobj v.heap (.tab Table.new)).2] false).heap a c := fun a c h => holds_old iw.heap h
  have hval : Holds w.heap u.heap.brk (.atom (.int 1)) := by rw [← hw]; exact f5 _ _ (fun h => fr _ (h ▸ m1.tab)) (holds_new iu.heap _)
  have hget := get_mem (key_homog (sc := someEnv.sc) Obj.strcmpDiff_law f2.prep.inv.strings .strs) f2.wf f2.keys f3
  refine ⟨enter w 1 [(newobj v.heap (.tab Table.new)).2] false, _, t, ⟨iw.enter 1 false (by
      intro a ha
      simp only [List.mem_singleton] at ha
      subst ha
      exact ⟨_, f2.tab⟩), p.state.trans lr, ⟨_, _, _, _, _, w.pc, rfl, by show _ ++ (List.take 1 w.stack).reverse = _; rw [st]; rfl, rfl, holds_new iw.heap _⟩⟩,
    ⟨t', j, _, hh _ _ f2.tab, ?_, hget, hh _ _ hval, by decide⟩, ⟨_, (show FMap.get w.other.vstigs 1 = _ by rw [p.other]; exact lo), rfl⟩, hent, hh _ _ (p.heap _ _ l1), ?_⟩
  · show Strman.get w.strings j = _
    rw [← hw]
    exact g1
  · show w.strings.id2str.length ≤ _
    rw [← hw]
    show u.strings.id2str.length ≤ _
    have : u.strings.id2str.length ≤ v.strings.id2str.length + 1 := z1
    omega

/-- The hypotheses of `C79_foreach` and `C79_foreach_stops` hold of a machine, with the library as C functions. -/
example : ∃ (F : CFuns) (vm : VM) (obj ca id : Nat) (t : Table.Tbl VElem), FOk F ∧ FHome F ∧ FApart F ∧ FFirm F ∧ Method vm obj [ca] ∧ HasId someEnv vm obj id ∧ StigHas vm id t ∧
    (∀ e ∈ Dict.entries t, e.2.robot < 65536) ∧ Holds vm.heap ca (.clo true 2 [0]) ∧ vm.strings.id2str.length ≤ 65533 ∧ Dict.entries t = [(.int 1, ⟨0, 0, 1, 7⟩)] := by
  obtain ⟨vm, obj, t, h1, h2, h3, h4, h5, h6⟩ := stig_method
  exact ⟨_, vm, obj, 1, 1, t, std_all (E := someEnv).1, std_all.2.1, std_all.2.2.1, std_all.2.2.2, h1, h2, h3, by rw [h4]; simp, h5, h6, h4⟩

/-- The hypotheses of `C79_foreach_unknown` hold of a machine. -/
example : ∃ (vm : VM) (obj ca id : Nat), Method vm obj [ca] ∧ HasId someEnv vm obj id ∧ FMap.get vm.other.vstigs id = none ∧ vm.strings.id2str.length ≤ 65533 := by
  obtain ⟨vm, obj, t, h1, h2, h3, h4, h5, h6⟩ := stig_method
  exact ⟨{ vm with other := { vm.other with vstigs := [] } }, obj, 1, 1, ⟨{ h1.inv with other := { h1.inv.other with vstigs := fun e he => by cases he } }, h1.ready, h1.ex⟩, h2, rfl, h6⟩

end Buzz.Props
