import Verif.Props.HofRuns
import Verif.Props.NbrMachine

/-
Scripts with the functions of `neighbors`, compiled and run by the model (C78).
-/
namespace Buzz.Props

open Buzz.F32 Buzz.Msg Buzz.Heap Buzz.Value Buzz.VM Buzz.HeapWire

/-- The library with the functions of `neighbors`; a callback can call them again. -/
def nbrLib : CFuns := nbrFuns someEnv 100 (Sim.stdFuns someEnv Props.noFuns) 2

/-- How bytecode ends on a machine with the table `neighbors`, into which the host has written the neighbours 3 and 4: state, error and the value of the variable `x`. -/
def playNbr (code : Bytes) : Res (VM.State × VM.Err × Option Obj) := do
  let vm ← VM.load someEnv code VM.new
  let vm ← boot someEnv nbrLib 200 vm
  let vm ← cmds someEnv 7 regNeighbors (vm, 0)
  let vm ← nbrReset someEnv vm.1
  let vm ← nbrAdd someEnv 3 0 0 0 vm
  let vm ← nbrAdd someEnv 4 0 0 0 vm
  let vm ← VM.run someEnv nbrLib 400 vm
  .ok (vm.state, vm.error, globalAt vm [120])

/-- A text is compiled, and its bytecode ends like this. -/
def BehavesNbr (text : String) (r : Res (VM.State × VM.Err × Option Obj)) : Prop := ∃ code, codeOf text = .ok (some code) ∧ playNbr code = r

def nbrCode1 : Bytes := [3, 0, 120, 0, 110, 101, 105, 103, 104, 98, 111, 114, 115, 0, 102, 111, 114, 101, 97, 99, 104, 0, 0, 37, 0, 0, 0, 0, 36, 0, 0, 0, 0, 29, 37, 1, 0, 0, 0, 28, 3, 37, 2, 0, 0, 0, 32, 40, 60, 0, 0, 0, 36, 1, 0, 0, 0, 33, 4, 1, 37, 0, 0, 0, 0, 37, 0, 0, 0, 0, 28, 36, 100, 0, 0, 0, 9, 41, 1, 0, 0, 0, 7, 29, 5]

theorem nbrCode1_of : codeOf "x=0\nneighbors.foreach(function(k,v){x=x*100+k})" = .ok (some nbrCode1) := codeS_eq (by decide +kernel)

theorem nbrCode1_ends : playNbr nbrCode1 = .ok (.done, .none, some (.int 304)) := by decide +kernel

def nbrCode2 : Bytes := [3, 0, 120, 0, 110, 101, 105, 103, 104, 98, 111, 114, 115, 0, 114, 101, 100, 117, 99, 101, 0, 0, 37, 0, 0, 0, 0, 37, 1, 0, 0, 0, 28, 3, 37, 2, 0, 0, 0, 32, 40, 58, 0, 0, 0, 36, 100, 0, 0, 0, 36, 2, 0, 0, 0, 33, 29, 1, 41, 3, 0, 0, 0, 41, 1, 0, 0, 0, 7, 6, 5]

theorem nbrCode2_of : codeOf "x=neighbors.reduce(function(k,v,a){return a+k},100)" = .ok (some nbrCode2) := codeS_eq (by decide +kernel)

theorem nbrCode2_ends : playNbr nbrCode2 = .ok (.done, .none, some (.int 107)) := by decide +kernel

def nbrCode3 : Bytes := [5, 0, 116, 0, 110, 101, 105, 103, 104, 98, 111, 114, 115, 0, 109, 97, 112, 0, 120, 0, 103, 101, 116, 0, 0, 37, 0, 0, 0, 0, 37, 1, 0, 0, 0, 28, 3, 37, 2, 0, 0, 0, 32, 40, 86, 0, 0, 0, 36, 1, 0, 0, 0, 33, 29, 37, 3, 0, 0, 0, 37, 0, 0, 0, 0, 28, 3, 37, 4, 0, 0, 0, 32, 36, 3, 0, 0, 0, 36, 1, 0, 0, 0, 33, 29, 1, 41, 1, 0, 0, 0, 36, 2, 0, 0, 0, 9, 6, 5]

theorem nbrCode3_of : codeOf "t=neighbors.map(function(k,v){return k*2})\nx=t.get(3)" = .ok (some nbrCode3) := codeS_eq (by decide +kernel)

theorem nbrCode3_ends : playNbr nbrCode3 = .ok (.done, .none, some (.int 6)) := by decide +kernel

def nbrCode4 : Bytes := [5, 0, 116, 0, 110, 101, 105, 103, 104, 98, 111, 114, 115, 0, 102, 105, 108, 116, 101, 114, 0, 120, 0, 99, 111, 117, 110, 116, 0, 0, 37, 0, 0, 0, 0, 37, 1, 0, 0, 0, 28, 3, 37, 2, 0, 0, 0, 32, 40, 86, 0, 0, 0, 36, 1, 0, 0, 0, 33, 29, 37, 3, 0, 0, 0, 37, 0, 0, 0, 0, 28, 3, 37, 4, 0, 0, 0, 32, 36, 0, 0, 0, 0, 33, 29, 1, 41, 1, 0, 0, 0, 36, 3, 0, 0, 0, 24, 6, 5]

theorem nbrCode4_of : codeOf "t=neighbors.filter(function(k,v){return k>3})\nx=t.count()" = .ok (some nbrCode4) := codeS_eq (by decide +kernel)

theorem nbrCode4_ends : playNbr nbrCode4 = .ok (.done, .none, some (.int 1)) := by decide +kernel

def nbrCode5 : Bytes := [6, 0, 116, 0, 110, 101, 105, 103, 104, 98, 111, 114, 115, 0, 109, 97, 112, 0, 102, 105, 108, 116, 101, 114, 0, 120, 0, 114, 101, 100, 117, 99, 101, 0, 0, 37, 0, 0, 0, 0, 37, 1, 0, 0, 0, 28, 3, 37, 2, 0, 0, 0, 32, 40, 131, 0, 0, 0, 36, 1, 0, 0, 0, 33, 29, 37, 0, 0, 0, 0, 37, 0, 0, 0, 0, 28, 3, 37, 3, 0, 0, 0, 32, 40, 144, 0, 0, 0, 36, 1, 0, 0, 0, 33, 29, 37, 4, 0, 0, 0, 37, 0, 0, 0, 0, 28, 3, 37, 5, 0, 0, 0, 32, 40, 157, 0, 0, 0, 36, 100, 0, 0, 0, 36, 2, 0, 0, 0, 33, 29, 1, 41, 1, 0, 0, 0, 36, 2, 0, 0, 0, 9, 6, 5, 41, 2, 0, 0, 0, 36, 6, 0, 0, 0, 24, 6, 5, 41, 3, 0, 0, 0, 41, 2, 0, 0, 0, 7, 6, 5]

theorem nbrCode5_of : codeOf "t=neighbors.map(function(k,v){return k*2})\nt=t.filter(function(k,v){return v>6})\nx=t.reduce(function(k,v,a){return a+v},100)" = .ok (some nbrCode5) := codeS_eq (by decide +kernel)

theorem nbrCode5_ends : playNbr nbrCode5 = .ok (.done, .none, some (.int 108)) := by decide +kernel

def nbrCode6 : Bytes := [5, 0, 116, 0, 110, 101, 105, 103, 104, 98, 111, 114, 115, 0, 107, 105, 110, 0, 120, 0, 99, 111, 117, 110, 116, 0, 0, 37, 0, 0, 0, 0, 37, 1, 0, 0, 0, 28, 3, 37, 2, 0, 0, 0, 32, 36, 0, 0, 0, 0, 33, 29, 37, 3, 0, 0, 0, 37, 0, 0, 0, 0, 28, 3, 37, 4, 0, 0, 0, 32, 36, 0, 0, 0, 0, 33, 29, 1]

theorem nbrCode6_of : codeOf "t=neighbors.kin()\nx=t.count()" = .ok (some nbrCode6) := codeS_eq (by decide +kernel)

theorem nbrCode6_ends : playNbr nbrCode6 = .ok (.done, .none, some (.int 2)) := by decide +kernel

def nbrCode7 : Bytes := [5, 0, 116, 0, 110, 101, 105, 103, 104, 98, 111, 114, 115, 0, 110, 111, 110, 107, 105, 110, 0, 120, 0, 99, 111, 117, 110, 116, 0, 0, 37, 0, 0, 0, 0, 37, 1, 0, 0, 0, 28, 3, 37, 2, 0, 0, 0, 32, 36, 0, 0, 0, 0, 33, 29, 37, 3, 0, 0, 0, 37, 0, 0, 0, 0, 28, 3, 37, 4, 0, 0, 0, 32, 36, 0, 0, 0, 0, 33, 29, 1]

theorem nbrCode7_of : codeOf "t=neighbors.nonkin()\nx=t.count()" = .ok (some nbrCode7) := codeS_eq (by decide +kernel)

theorem nbrCode7_ends : playNbr nbrCode7 = .ok (.done, .none, some (.int 0)) := by decide +kernel

/-- Scripts with `neighbors.foreach`, `reduce`, `map`, `filter`, a chain of them, `kin` and `nonkin` outside a swarm, compiled and run with the neighbours 3 and 4. -/
theorem C78_runs : BehavesNbr "x=0\nneighbors.foreach(function(k,v){x=x*100+k})" (.ok (.done, .none, some (.int 304))) ∧
    BehavesNbr "x=neighbors.reduce(function(k,v,a){return a+k},100)" (.ok (.done, .none, some (.int 107))) ∧
    BehavesNbr "t=neighbors.map(function(k,v){return k*2})\nx=t.get(3)" (.ok (.done, .none, some (.int 6))) ∧
    BehavesNbr "t=neighbors.filter(function(k,v){return k>3})\nx=t.count()" (.ok (.done, .none, some (.int 1))) ∧
    BehavesNbr "t=neighbors.map(function(k,v){return k*2})\nt=t.filter(function(k,v){return v>6})\nx=t.reduce(function(k,v,a){return a+v},100)" (.ok (.done, .none, some (.int 108))) ∧
    BehavesNbr "t=neighbors.kin()\nx=t.count()" (.ok (.done, .none, some (.int 2))) ∧
    BehavesNbr "t=neighbors.nonkin()\nx=t.count()" (.ok (.done, .none, some (.int 0))) :=
  ⟨⟨_, nbrCode1_of, nbrCode1_ends⟩, ⟨_, nbrCode2_of, nbrCode2_ends⟩, ⟨_, nbrCode3_of, nbrCode3_ends⟩, ⟨_, nbrCode4_of, nbrCode4_ends⟩, ⟨_, nbrCode5_of, nbrCode5_ends⟩, ⟨_, nbrCode6_of, nbrCode6_ends⟩, ⟨_, nbrCode7_of, nbrCode7_ends⟩⟩

def nbrCode8 : Bytes := [5, 0, 116, 0, 110, 101, 105, 103, 104, 98, 111, 114, 115, 0, 109, 97, 112, 0, 120, 0, 99, 111, 117, 110, 116, 0, 0, 37, 0, 0, 0, 0, 37, 1, 0, 0, 0, 28, 3, 37, 2, 0, 0, 0, 32, 40, 83, 0, 0, 0, 36, 1, 0, 0, 0, 33, 29, 37, 3, 0, 0, 0, 37, 0, 0, 0, 0, 28, 3, 37, 4, 0, 0, 0, 32, 36, 0, 0, 0, 0, 33, 29, 1, 5]

theorem nbrCode8_of : codeOf "t=neighbors.map(function(k,v){})\nx=t.count()" = .ok (some nbrCode8) := codeS_eq (by decide +kernel)

theorem nbrCode8_ends : playNbr nbrCode8 = .ok (.done, .none, some (.int 2)) := by decide +kernel

/-- Unlike `map` for tables, `neighbors.map` keeps entries for which the call returns nothing. -/
theorem C78_nil : BehavesNbr "t=neighbors.map(function(k,v){})\nx=t.count()" (.ok (.done, .none, some (.int 2))) :=
  ⟨_, nbrCode8_of, nbrCode8_ends⟩

def nbrCode11 : Bytes := [4, 0, 120, 0, 110, 101, 105, 103, 104, 98, 111, 114, 115, 0, 102, 111, 114, 101, 97, 99, 104, 0, 108, 111, 103, 0, 0, 37, 0, 0, 0, 0, 36, 0, 0, 0, 0, 29, 37, 1, 0, 0, 0, 28, 3, 37, 2, 0, 0, 0, 32, 40, 64, 0, 0, 0, 36, 1, 0, 0, 0, 33, 4, 1, 37, 0, 0, 0, 0, 37, 0, 0, 0, 0, 28, 36, 1, 0, 0, 0, 7, 29, 2, 37, 3, 0, 0, 0, 28, 41, 1, 0, 0, 0, 36, 1, 0, 0, 0, 33, 4, 5]

theorem nbrCode11_of : codeOf "x=0\nneighbors.foreach(function(k,v){x=x+1\nlog(k)})" = .ok (some nbrCode11) := codeS_eq (by decide +kernel)

theorem nbrCode11_ends : playNbr nbrCode11 = .ok (.error, .type, some (.int 1)) := by decide +kernel

/-- After a call that fails there are no further calls: `log` is nil here. -/
theorem C78_error : BehavesNbr "x=0\nneighbors.foreach(function(k,v){x=x+1\nlog(k)})" (.ok (.error, .type, some (.int 1))) :=
  ⟨_, nbrCode11_of, nbrCode11_ends⟩

def nbrCode9 : Bytes := [3, 0, 110, 101, 105, 103, 104, 98, 111, 114, 115, 0, 109, 97, 112, 0, 112, 111, 115, 101, 115, 0, 0, 37, 0, 0, 0, 0, 28, 3, 37, 1, 0, 0, 0, 32, 40, 49, 0, 0, 0, 36, 1, 0, 0, 0, 33, 4, 1, 37, 0, 0, 0, 0, 28, 37, 2, 0, 0, 0, 32, 41, 1, 0, 0, 0, 2, 31, 36, 1, 0, 0, 0, 6, 5]

theorem nbrCode9_of : codeOf "neighbors.map(function(k,v){neighbors.poses[k]=nil\nreturn 1})" = .ok (some nbrCode9) := codeS_eq (by decide +kernel)

theorem nbrCode9_ends : playNbr nbrCode9 = .ub := by decide +kernel

def nbrCode10 : Bytes := [3, 0, 110, 101, 105, 103, 104, 98, 111, 114, 115, 0, 102, 111, 114, 101, 97, 99, 104, 0, 112, 111, 115, 101, 115, 0, 0, 37, 0, 0, 0, 0, 28, 3, 37, 1, 0, 0, 0, 32, 40, 53, 0, 0, 0, 36, 1, 0, 0, 0, 33, 4, 1, 37, 0, 0, 0, 0, 28, 37, 2, 0, 0, 0, 32, 41, 1, 0, 0, 0, 2, 31, 5]

theorem nbrCode10_of : codeOf "neighbors.foreach(function(k,v){neighbors.poses[k]=nil})" = .ok (some nbrCode10) := codeS_eq (by decide +kernel)

theorem nbrCode10_ends : playNbr nbrCode10 = .ub := by decide +kernel

/-- **A defect**: a callback must not remove neighbours: the entry is read after it has been freed. -/
theorem C78_removing : BehavesNbr "neighbors.map(function(k,v){neighbors.poses[k]=nil\nreturn 1})" (.ub) ∧
    BehavesNbr "neighbors.foreach(function(k,v){neighbors.poses[k]=nil})" (.ub) :=
  ⟨⟨_, nbrCode9_of, nbrCode9_ends⟩, ⟨_, nbrCode10_of, nbrCode10_ends⟩⟩

def nbrCode12 : Bytes := [4, 0, 110, 101, 105, 103, 104, 98, 111, 114, 115, 0, 112, 111, 115, 101, 115, 0, 120, 0, 99, 111, 117, 110, 116, 0, 0, 37, 0, 0, 0, 0, 28, 37, 1, 0, 0, 0, 36, 1, 0, 0, 0, 31, 37, 2, 0, 0, 0, 37, 0, 0, 0, 0, 28, 3, 37, 3, 0, 0, 0, 32, 36, 0, 0, 0, 0, 33, 29, 1]

/-- **A defect**: `count` reads whatever is in the field `poses` as a table. -/
theorem C78_count : BehavesNbr "neighbors.poses=1\nx=neighbors.count()" .ub := ⟨nbrCode12, codeS_eq (by decide +kernel), by decide +kernel⟩

/-- A machine that has entered a method of a table like `neighbors` with the data `{3: 5}`, with `n` of the objects on the stack as arguments. -/
theorem nbr_method (n : Nat) : ∃ (vm : VM) (sa pa : Nat) (t : Table.Tbl (Nat × Nat)), Method vm sa ([3, 2, 1, 0].take n).reverse ∧ PosesAt someEnv vm sa pa ∧ Holds vm.heap pa (.tab t) ∧
    Holds vm.heap 3 (.clo true 2 [0]) ∧ Poses t ∧ Dict.entries t = [(.int 3, (1, 2))] ∧ vm.strings.id2str.length + 20 ≤ 65534 ∧ vm.swarmstack = [] := by
  have i2 := ((VM.new_inv.push (c := .atom .nil) trivial).push (c := .atom (.int 3)) (by show I32 3; unfold I32; decide)).push (c := .atom (.int 5)) (by show I32 5; unfold I32; decide)
  obtain ⟨t, h1, h2, h3, h4⟩ := Table.put_spec (V := Nat × Nat) (C13_int_keys someEnv.sc) (t := Table.new) (Dict.new_wf (by decide))
    (fun e he => by simp [Table.new, Dict.entries_new] at he) (k := .int 3) ⟨3, rfl⟩ (some (1, 2))
  have hent : Dict.entries t = [(.int 3, (1, 2))] := by
    have : Dict.entries (Table.new : Table.Tbl (Nat × Nat)) = [] := by simp [Table.new, Dict.entries_new]
    rw [this] at h4
    exact List.perm_singleton.mp h4
  have i7 := i2.push (c := .clo true 2 [0]) ⟨by unfold I32; decide, by
    intro a ha
    simp only [List.mem_singleton] at ha
    subst ha
    exact ⟨.atom .nil, ⟨_, rfl, rfl⟩⟩⟩
  have i8 : VInv { VM.push (VM.push (VM.push (VM.push VM.new (.atom .nil)) (.atom (.int 3))) (.atom (.int 5))) (.clo true 2 [0]) with state := .ready } :=
    { i7 with depth := fun _ => i7.depth (by simp [VM.push, VM.new]) }
  generalize hv : ({ VM.push (VM.push (VM.push (VM.push VM.new (.atom .nil)) (.atom (.int 3))) (.atom (.int 5))) (.clo true 2 [0]) with state := .ready } : VM) = v at i8
  have l1 : Holds v.heap 1 (.atom (.int 3)) := by rw [← hv]; exact ⟨_, rfl, rfl⟩
  have l2 : Holds v.heap 2 (.atom (.int 5)) := by rw [← hv]; exact ⟨_, rfl, rfl⟩
  have l3 : Holds v.heap 3 (.clo true 2 [0]) := by rw [← hv]; exact ⟨_, rfl, rfl⟩
  have lr : v.state = .ready := by rw [← hv]
  have ls : v.stack = [3, 2, 1, 0] := by rw [← hv]; rfl
  have lz : v.strings.id2str.length = 0 := by rw [← hv]; rfl
  have lw : v.swarmstack = [] := by rw [← hv]; rfl
  obtain ⟨u, tb, e1, m1, s1, z1⟩ := table_made (E := someEnv) Obj.strcmpDiff_law i8 (by omega)
  obtain ⟨w, tb', y, e2, m2, s2, po, _, hd, _, z2⟩ := m1.poses (E := someEnv) Obj.strcmpDiff_law (nbrFields_names _) (t0 := t) ⟨Nat.pos_iff_ne_zero.mp h2.pos, fun e he => by
    rw [hent, List.mem_singleton] at he
    subst he
    exact ⟨rfl, by simp [Obj.tableHash], m1.prep.heap _ _ l1, ⟨_, m1.prep.heap _ _ l2⟩⟩⟩ (fun b hb => by
      simp only [children, hent, List.flatMap_cons, List.flatMap_nil, List.append_nil, List.mem_cons, List.not_mem_nil, or_false] at hb
      rcases hb with rfl | rfl
      · exact ⟨_, l1⟩
      · exact ⟨_, l2⟩) (by omega)
  have p := m2.prep
  have iw := p.inv
  have st : w.stack = [3, 2, 1, 0] := by rw [s2, s1, ls]
  have hh : ∀ a c, Holds w.heap a c → Holds (enter w n [v.heap.brk] false).heap a c := fun a c h => holds_old iw.heap h
  refine ⟨enter w n [v.heap.brk] false, v.heap.brk, u.heap.brk, t, ⟨iw.enter n false (by
      intro a ha
      simp only [List.mem_singleton] at ha
      subst ha
      exact ⟨_, m2.tab⟩), p.state.trans lr, ⟨_, _, _, _, _, w.pc, rfl, by rw [← st]; rfl, rfl, holds_new iw.heap _⟩⟩, ?_, hh _ _ hd, hh _ _ (p.heap _ _ l3), ⟨h2, ?_⟩, hent, ?_, ?_⟩
  · obtain ⟨t0, sid, y, q1, q2, q3, q4⟩ := po
    exact ⟨t0, sid, y, hh _ _ q1, q2, q3, q4⟩
  · intro e he
    rw [hent, List.mem_singleton] at he
    exact ⟨3, by decide, by rw [he]; rfl⟩
  · show w.strings.id2str.length + 20 ≤ 65534
    omega
  · show w.swarmstack = []
    rw [p.eq]
    exact lw

/-- The hypotheses of the theorems for `foreach`, `map` and `filter` hold of a machine, with the library as C functions. -/
example : ∃ (F : CFuns) (vm : VM) (sa pa ca : Nat) (t : Table.Tbl (Nat × Nat)), FOk F ∧ FHome F ∧ FApart F ∧ FFirm F ∧ Obj.StrcmpLaw someEnv.sc ∧ Method vm sa [ca] ∧
    PosesAt someEnv vm sa pa ∧ Holds vm.heap pa (.tab t) ∧ Holds vm.heap ca (.clo true 2 [0]) ∧ Table.Homog someEnv.sc IsInt ∧ Dict.WF Table.hashN Table.eqd t ∧
    Table.Keys IsInt t ∧ vm.strings.id2str.length + 10 ≤ 65534 ∧ Dict.entries t = [(.int 3, (1, 2))] := by
  obtain ⟨vm, sa, pa, t, h1, h2, h3, h4, h5, h6, h7, h8⟩ := nbr_method 1
  exact ⟨_, vm, sa, pa, 3, t, std_all (E := someEnv).1, std_all.2.1, std_all.2.2.1, std_all.2.2.2, Obj.strcmpDiff_law, h1, h2, h3, h4, C13_int_keys someEnv.sc, h5.wf, h5.isInt, by omega, h6⟩

/-- The hypotheses of the theorems for `kin` and `nonkin` hold of a machine. -/
example : ∃ (vm : VM) (sa pa : Nat) (t : Table.Tbl (Nat × Nat)), Obj.StrcmpLaw someEnv.sc ∧ Method vm sa [] ∧ PosesAt someEnv vm sa pa ∧ Holds vm.heap pa (.tab t) ∧ Poses t ∧
    (∀ s ∈ vm.swarmstack.head?, s < 65536) ∧ vm.strings.id2str.length + 10 ≤ 65534 ∧ Dict.entries t = [(.int 3, (1, 2))] := by
  obtain ⟨vm, sa, pa, t, h1, h2, h3, h4, h5, h6, h7, h8⟩ := nbr_method 0
  exact ⟨vm, sa, pa, t, Obj.strcmpDiff_law, h1, h2, h3, h5, by simp [h8], by omega, h6⟩

/-- The hypotheses of the theorem for `nonkin` hold of a machine in the swarm 7. -/
example : ∃ (vm : VM) (sa pa : Nat) (t : Table.Tbl (Nat × Nat)), Obj.StrcmpLaw someEnv.sc ∧ Method vm sa [] ∧ PosesAt someEnv vm sa pa ∧ Holds vm.heap pa (.tab t) ∧ Poses t ∧
    vm.swarmstack = [7] ∧ vm.strings.id2str.length + 10 ≤ 65534 ∧ Dict.entries t = [(.int 3, (1, 2))] := by
  obtain ⟨vm, sa, pa, t, h1, h2, h3, h4, h5, h6, h7, h8⟩ := nbr_method 0
  exact ⟨{ vm with swarmstack := [7] }, sa, pa, t, Obj.strcmpDiff_law, ⟨{ h1.inv with }, h1.ready, h1.ex⟩, h2, h3, h5, rfl, (show vm.strings.id2str.length + 10 ≤ 65534 by omega), h6⟩

end Buzz.Props
