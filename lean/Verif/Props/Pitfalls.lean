import Verif.Props.Acceptance
import Verif.Props.Compiler
import Verif.Props.Listen
import Verif.NbrLib

/-
Witnesses of behaviour a user would not expect.  Each is the result of a concrete run of the whole chain of compiler, assembler and machine (`Behaves`), or of one
function of the machine; they show what the general theorems exclude.
-/
namespace Buzz.Props

open Buzz.F32 Buzz.Msg Buzz.Heap Buzz.Value Buzz.VM Buzz.HeapWire Buzz.OutMsg Buzz.Parser Buzz.Lex Buzz.Asm

/-- The bytecode of a text: `none` if the compiler or the assembler rejects it. -/
def codeOf (text : String) : Res (Option Bytes) := do
  match ← compile (oneFile text) 120 [] [97] with
  | none => .ok none
  | some file =>
    match ← asm someTools id file with
    | none => .ok none
    | some (code, _) => .ok (some code)

/-- The object a global variable refers to. -/
def globalAt (vm : VM) (x : Bytes) : Option Obj :=
  (FMap.get vm.strings.str2id x).bind fun i => (FMap.get vm.gsyms i).bind fun a => (FMap.get vm.heap.objs a).map fun o => objOf a o.cell

/-- How bytecode ends: state, error and the value of the variable `x`. -/
def play (code : Bytes) : Res (VM.State × VM.Err × Option Obj) := do
  let vm ← VM.load someEnv code VM.new
  let vm ← boot someEnv Props.noFuns 100 vm
  let vm ← VM.run someEnv Props.noFuns 300 vm
  .ok (vm.state, vm.error, globalAt vm [120])

/-- A text is compiled, and its bytecode ends like this. -/
def Behaves (text : String) (r : Res (VM.State × VM.Err × Option Obj)) : Prop := ∃ code, codeOf text = .ok (some code) ∧ play code = r

/-! The strings of a program are in the order of their numbers, so that sorting them does nothing; sorting cannot be evaluated by the kernel. -/

/-- `output` without sorting; it does not return if sorting is needed. -/
def outputS (p : P) : Res Bytes :=
  if p.strings.Pairwise (fun a b => decide (a.2 ≤ b.2) = true) then do
    let r ← registerAll (p.symstack.getLastD []) p.chunks
    pure (33 :: (Obj.digits p.strings.length ++ 10 :: ((p.strings.map Prod.fst).flatMap (fun s => 39 :: (s ++ [10])) ++
      10 :: (r.flatMap (fun l => l.text ++ [10]) ++ ((9 :: opName 0) ++ 10 :: p.chunks.flatMap chunkText)))))
  else .hang

theorem outputS_eq {p : P} {f : Bytes} (h : outputS p = .ok f) : output p = .ok f := by
  unfold outputS at h
  split at h
  · rename_i hp
    unfold output sorted
    rw [List.mergeSort_of_pairwise hp]
    exact h
  · cases h

/-- `compile` with `outputS`. -/
def compileS (fs : FS) (n : Nat) (pre : List Bytes) (fname : Bytes) : Res (Option Bytes) :=
  match lexNew fs fname with
  | none => .ok none
  | some lex => do
    let x ← drain fs n lex
    match ← script n pre x.1 x.2 with
    | none => pure none
    | some p => do
      let t ← outputS p
      pure (some t)

theorem compileS_eq {fs : FS} {n : Nat} {pre : List Bytes} {fname : Bytes} {f : Bytes} (h : compileS fs n pre fname = .ok (some f)) : compile fs n pre fname = .ok (some f) := by
  unfold compileS at h
  unfold compile
  split at h
  · cases h
  · rename_i lex hl
    rw [hl]
    obtain ⟨x, h1, h2⟩ := Res.bind_eq_ok.mp h
    obtain ⟨y, h3, h4⟩ := Res.bind_eq_ok.mp h2
    refine Res.bind_eq_ok.mpr ⟨x, h1, Res.bind_eq_ok.mpr ⟨y, h3, ?_⟩⟩
    cases y with
    | none => cases h4
    | some p =>
      obtain ⟨z, h5, h6⟩ := Res.bind_eq_ok.mp h4
      exact Res.bind_eq_ok.mpr ⟨z, outputS_eq h5, h6⟩

/-- `codeOf` with `compileS`. -/
def codeS (text : String) : Res (Option (Option Bytes)) := do
  match ← compileS (oneFile text) 120 [] [97] with
  | none => .ok none
  | some file =>
    match ← asm someTools id file with
    | none => .ok (some none)
    | some (code, _) => .ok (some (some code))

theorem codeS_eq {text : String} {c : Option Bytes} (h : codeS text = .ok (some c)) : codeOf text = .ok c := by
  unfold codeS at h
  obtain ⟨x, h1, h2⟩ := Res.bind_eq_ok.mp h
  cases x with
  | none => cases h2
  | some f =>
    unfold codeOf
    refine Res.bind_eq_ok.mpr ⟨_, compileS_eq h1, ?_⟩
    obtain ⟨y, h3, h4⟩ := Res.bind_eq_ok.mp h2
    refine Res.bind_eq_ok.mpr ⟨y, h3, ?_⟩
    cases y with
    | none => cases h4; rfl
    | some z => cases h4; rfl

def code1 : Bytes := [1, 0, 120, 0, 0, 36, 1, 0, 0, 0, 45, 47, 0, 0, 0, 2, 42, 0, 0, 0, 0, 36, 3, 0, 0, 0, 42, 0, 0, 0, 0, 37, 0, 0, 0, 0, 41, 0, 0, 0, 0, 29, 43, 1, 0, 0, 0, 1]

theorem code1_of : codeOf "if(1) { var a=3 x=a }" = .ok (some code1) := codeS_eq (by decide +kernel)

def code2 : Bytes := [2, 0, 105, 0, 120, 0, 0, 37, 0, 0, 0, 0, 36, 0, 0, 0, 0, 29, 37, 0, 0, 0, 0, 28, 36, 2, 0, 0, 0, 26, 46, 63, 0, 0, 0, 44, 101, 0, 0, 0, 37, 0, 0, 0, 0, 37, 0, 0, 0, 0, 28, 36, 1, 0, 0, 0, 7, 29, 44, 18, 0, 0, 0, 2, 42, 0, 0, 0, 0, 37, 0, 0, 0, 0, 28, 42, 0, 0, 0, 0, 37, 1, 0, 0, 0, 41, 0, 0, 0, 0, 29, 43, 1, 0, 0, 0, 44, 40, 0, 0, 0, 1]

theorem code2_of : codeOf "for(i=0,i<2,i=i+1) { var a=i x=a }" = .ok (some code2) := codeS_eq (by decide +kernel)

theorem code1_ends : play code1 = .ub := by decide +kernel

theorem code2_ends : play code2 = .ub := by decide +kernel

/-- **A defect**: a variable declared in a block outside functions is undefined: there are no local symbols. -/
theorem C53_block_variable : Behaves "if(1) { var a=3 x=a }" (.ub) ∧ Behaves "for(i=0,i<2,i=i+1) { var a=i x=a }" (.ub) :=
  ⟨⟨_, code1_of, code1_ends⟩, ⟨_, code2_of, code2_ends⟩⟩

def code3 : Bytes := [2, 0, 102, 0, 120, 0, 0, 36, 1, 0, 0, 0, 45, 28, 0, 0, 0, 37, 0, 0, 0, 0, 40, 53, 0, 0, 0, 29, 37, 1, 0, 0, 0, 2, 37, 0, 0, 0, 0, 28, 36, 5, 0, 0, 0, 36, 1, 0, 0, 0, 33, 29, 1, 41, 0, 0, 0, 0, 6, 5]

theorem code3_of : codeOf "if(1) { f = function(a) { return a } }\nx=f(5)" = .ok (some code3) := codeS_eq (by decide +kernel)

def code4 : Bytes := [2, 0, 102, 0, 120, 0, 0, 37, 0, 0, 0, 0, 40, 43, 0, 0, 0, 29, 37, 1, 0, 0, 0, 2, 37, 0, 0, 0, 0, 28, 36, 5, 0, 0, 0, 36, 1, 0, 0, 0, 33, 29, 1, 41, 1, 0, 0, 0, 6, 5]

theorem code4_of : codeOf "f = function(a) { return a }\nx=f(5)" = .ok (some code4) := codeS_eq (by decide +kernel)

theorem code3_ends : play code3 = .ok (.done, .none, some (.nil)) := by decide +kernel

theorem code4_ends : play code4 = .ok (.done, .none, some (.int 5)) := by decide +kernel

/-- **A defect**: a function made in a block outside functions takes `self` for its first parameter. -/
theorem C53_block_function : Behaves "if(1) { f = function(a) { return a } }\nx=f(5)" (.ok (.done, .none, some (.nil))) ∧ Behaves "f = function(a) { return a }\nx=f(5)" (.ok (.done, .none, some (.int 5))) :=
  ⟨⟨_, code3_of, code3_ends⟩, ⟨_, code4_of, code4_ends⟩⟩

def code5 : Bytes := [3, 0, 102, 0, 120, 0, 121, 0, 37, 0, 0, 0, 0, 38, 46, 0, 0, 0, 29, 0, 37, 2, 0, 0, 0, 36, 0, 0, 0, 0, 2, 37, 0, 0, 0, 0, 28, 36, 0, 0, 0, 0, 33, 14, 29, 1, 37, 1, 0, 0, 0, 36, 5, 0, 0, 0, 29, 36, 1, 0, 0, 0, 6, 5]

theorem code5_of : codeOf "function f() { x=5 return 1 }\ny=(0 and f())" = .ok (some code5) := codeS_eq (by decide +kernel)

def code6 : Bytes := [3, 0, 102, 0, 120, 0, 121, 0, 37, 0, 0, 0, 0, 38, 46, 0, 0, 0, 29, 0, 37, 2, 0, 0, 0, 36, 1, 0, 0, 0, 2, 37, 0, 0, 0, 0, 28, 36, 0, 0, 0, 0, 33, 15, 29, 1, 37, 1, 0, 0, 0, 36, 5, 0, 0, 0, 29, 36, 1, 0, 0, 0, 6, 5]

theorem code6_of : codeOf "function f() { x=5 return 1 }\ny=(1 or f())" = .ok (some code6) := codeS_eq (by decide +kernel)

theorem code5_ends : play code5 = .ok (.done, .none, some (.int 5)) := by decide +kernel

theorem code6_ends : play code6 = .ok (.done, .none, some (.int 5)) := by decide +kernel

/-- `and` and `or` evaluate both sides, also if the first decides. -/
theorem C42_eager : Behaves "function f() { x=5 return 1 }\ny=(0 and f())" (.ok (.done, .none, some (.int 5))) ∧ Behaves "function f() { x=5 return 1 }\ny=(1 or f())" (.ok (.done, .none, some (.int 5))) :=
  ⟨⟨_, code5_of, code5_ends⟩, ⟨_, code6_of, code6_ends⟩⟩

def code7 : Bytes := [1, 0, 120, 0, 0, 37, 0, 0, 0, 0, 36, 255, 255, 255, 255, 36, 3, 0, 0, 0, 17, 29, 1]

theorem code7_of : codeOf "x=-1&3" = .ok (some code7) := codeS_eq (by decide +kernel)

def code8 : Bytes := [2, 0, 97, 0, 120, 0, 0, 37, 0, 0, 0, 0, 36, 1, 0, 0, 0, 29, 37, 1, 0, 0, 0, 37, 0, 0, 0, 0, 28, 36, 3, 0, 0, 0, 17, 13, 29, 1]

theorem code8_of : codeOf "a=1 x=-a&3" = .ok (some code8) := codeS_eq (by decide +kernel)

theorem code7_ends : play code7 = .ok (.done, .none, some (.int 3)) := by decide +kernel

theorem code8_ends : play code8 = .ok (.done, .none, some (.int (-1))) := by decide +kernel

/-- **A defect**: a minus before a constant binds tighter than `&`, before a variable looser. -/
theorem C42_minus : Behaves "x=-1&3" (.ok (.done, .none, some (.int 3))) ∧ Behaves "a=1 x=-a&3" (.ok (.done, .none, some (.int (-1)))) :=
  ⟨⟨_, code7_of, code7_ends⟩, ⟨_, code8_of, code8_ends⟩⟩

def code9 : Bytes := [2, 0, 102, 0, 120, 0, 37, 0, 0, 0, 0, 38, 38, 0, 0, 0, 29, 0, 37, 1, 0, 0, 0, 2, 37, 0, 0, 0, 0, 28, 36, 0, 0, 0, 0, 33, 29, 1, 36, 3, 0, 0, 0, 6, 5]

theorem code9_of : codeOf "function f() { return\n3 }\nx=f()" = .ok (some code9) := codeS_eq (by decide +kernel)

def code10 : Bytes := [1, 0, 120, 0, 0, 37, 0, 0, 0, 0, 36, 1, 0, 0, 0, 36, 1, 0, 0, 0, 8, 29, 1]

theorem code10_of : codeOf "x=1\n-1" = .ok (some code10) := codeS_eq (by decide +kernel)

theorem code9_ends : play code9 = .ok (.done, .none, some (.int 3)) := by decide +kernel

theorem code10_ends : play code10 = .ok (.done, .none, some (.int 0)) := by decide +kernel

/-- The end of a line does not end a statement. -/
theorem C66_newline : Behaves "function f() { return\n3 }\nx=f()" (.ok (.done, .none, some (.int 3))) ∧ Behaves "x=1\n-1" (.ok (.done, .none, some (.int 0))) :=
  ⟨⟨_, code9_of, code9_ends⟩, ⟨_, code10_of, code10_ends⟩⟩

def code11 : Bytes := [0, 0, 0]

theorem code11_of : codeOf "" = .ok (some code11) := codeS_eq (by decide +kernel)

theorem code11_ends : play code11 = .ok (.error, .pc, none) := by decide +kernel

/-- **A defect**: the empty program stops with an error. -/
theorem C65_empty : Behaves "" (.ok (.error, .pc, none)) :=
  ⟨_, code11_of, code11_ends⟩

/-- A value assigned cannot be a condition without parentheses. -/
theorem C66_parentheses : verdict "x=1 and 0" = 1 ∧ verdict "x=(1 and 0)" = 0 ∧ verdict "x=1<2" = 1 ∧ verdict "x=(1<2)" = 0 := by decide +kernel

/-- **A defect**: the compiler accepts a string with a newline, the assembler does not accept what it writes. -/
theorem C41_newline : verdict "x='a\nb'" = 0 ∧ codeOf "x='a\nb'" = .ok none := ⟨by decide +kernel, codeS_eq (by decide +kernel)⟩

/-- **A defect**: the lines of a string with newlines are not counted: `y` is on line 3. -/
theorem C64_lines : ((tokens (oneFile "x='a\nb'\ny=1") 30 [⟨[97], chars "x='a\nb'\ny=1\n", 1, 0⟩]) >>= fun ts => Res.ok ((ts.filter fun t => decide (t.value = [121])).map (·.line))) = .ok [2] := by
  decide +kernel

/-- **A defect**: a broadcast whose value is cut off (two bytes of an integer) is passed on to the listener. -/
theorem C52_cut_value : afterMessage [0, 3, 0, 1, 116, 1, 0, 0] = .ok (some (.int 0), [], .ready) := by decide +kernel

/-- A machine in a function with two local symbols, about to remove `n` of them. -/
def removing (n : UInt8) : VM := { VM.new with code := [43, n, 0, 0, 0, 0, 0], state := .ready, frames := [⟨[4, 5], false⟩] }

/-- Removing too many local symbols is an error, and they are removed. -/
theorem C34_lremove : (step host noFuns (removing 2) >>= fun w => Res.ok (w.state, w.error, w.frames.map (·.syms))) = .ok (.error, .lnum, [[]]) ∧
    (step host noFuns (removing 1) >>= fun w => Res.ok (w.state, w.error, w.frames.map (·.syms))) = .ok (.ready, .none, [[4]]) := by decide +kernel

/-- **A defect**: a number of strings larger than that of the strings in the file makes the loader read code as strings, here beyond the end. -/
theorem C56_string_count : (load host [2, 0, 120, 0, 36, 1] VM.new >>= fun w => Res.ok w.pc) = .ub ∧ (load host [1, 0, 120, 0, 36, 1] VM.new >>= fun w => Res.ok w.pc) = .ok 4 := by decide +kernel

/-- **A defect**: a function of a script cannot be called from C with arguments. -/
theorem C36_arguments (E : Env) (F : CFuns) (n argc : Nat) (ha : 0 < argc) (name : Bytes) {vm : VM} {i a : Nat} {b : Bool} {r : Int} {l : List Nat} (hs : vm.state = .ready)
    (hn : FMap.get vm.strings.str2id name = some i) (hg : FMap.get vm.gsyms i = some a) (hv : Holds vm.heap a (.clo b r l)) (v : VInv vm) : functionCall E F n name argc vm = .ub := by
  obtain ⟨sm, h1, h2, h3, _⟩ := Strman.register_old v.strings hn false
  obtain ⟨p, hp⟩ := v.strings.there name i hn
  have hi : i < U16 := v.strings.small i (by rw [hp]; rfl)
  have hget : Strman.get sm (i % U16) = some name := by
    rw [show i % U16 = i from Nat.mod_eq_of_lt hi, h3, Strman.get, hp]
    rfl
  unfold functionCall
  have e0 : (if vm.state = .done then { vm with state := .ready } else vm) = vm := if_neg (by simp [hs])
  simp only [e0]
  rw [if_neg (by simp [hs]), h1, Res.ok_bind]
  simp only
  have e1 : pushS { vm with strings := sm } i = push { vm with strings := sm } (.atom (.str (i % U16) name)) := by
    unfold pushS
    rw [hget]
  rw [e1]
  have g : gload (push { vm with strings := sm } (.atom (.str (i % U16) name))) =
      .ok (pushAddr (popN (push { vm with strings := sm } (.atom (.str (i % U16) name))) 1) a) := by
    have hp := (peek_top (vm := push { vm with strings := sm } (.atom (.str (i % U16) name))) (holds_new v.heap (.atom (.str (i % U16) name))) vm.stack).1
    unfold gload need
    refine (if_neg (show ¬ (((vm.stack.length + 1 : Nat) : Int) - 1 < 0) by omega)).trans ?_
    refine Res.bind_eq_ok.mpr ⟨_, hp, ?_⟩
    simp only [objOf]
    rw [show i % U16 = i from Nat.mod_eq_of_lt hi]
    show (match FMap.get vm.gsyms i with | some a => _ | none => _) = _
    rw [hg]
    rfl
  rw [g, Res.ok_bind]
  have hc : peekCell (pushAddr (popN (push { vm with strings := sm } (.atom (.str (i % U16) name))) 1) a) 1 = .ok (.clo b r l) :=
    (peek_top (vm := push { vm with strings := sm } (.atom (.str (i % U16) name))) (holds_old v.heap hv) vm.stack).2.1
  rw [hc, Res.ok_bind]
  exact if_pos ha

end Buzz.Props
