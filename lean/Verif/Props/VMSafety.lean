import Verif.Props.VMValues
import Verif.VMCalls

/-
C32 (fetching stays inside the bytecode), C33 (done and error are final), C34 (operand checks), C56 (memory of the machine).
-/
namespace Buzz.Props

open Buzz.F32 Buzz.Msg Buzz.Heap Buzz.VM

/-! ## C32 -/

/-- **C32** one step: a machine that is ready afterwards has its program counter inside the bytecode. -/
theorem C32_step {E : Env} {F : CFuns} (hF : FOk F) {vm vm' : VM} (i : VInv vm) (p : vm.state = .ready → PcIn vm) (h : step E F vm = .ok vm') :
    vm'.state = .ready → 0 ≤ vm'.pc ∧ vm'.pc < vm'.code.length :=
  (Reached.fine hF i p (.step .here h)).2

/-- **C32** any number of steps of a loaded script: whenever the machine is ready the program counter is inside the bytecode, so the
next fetch is. -/
theorem C32_always {E : Env} {F : CFuns} (hF : FOk F) {code : Bytes} {vm w : VM} (hc : code.length ≤ 2147483647)
    (hn : ∀ n, rd16 E.endian code 0 = .ok n → n ≤ 65534) (hl : load E code VM.new = .ok vm) (hp : vm.pc < code.length) (h : Reached E F vm w)
    (hr : w.state = .ready) : (0 ≤ w.pc ∧ w.pc < w.code.length) ∧ ∃ n, fetch w = .ok n := by
  obtain ⟨i, _, h2, h3, _⟩ := load_inv hc hn hl
  have q := (Reached.fine hF i (fun _ => ⟨h3, by rw [h2]; exact hp⟩) h).2 hr
  refine ⟨q, ?_⟩
  obtain ⟨n, hn, _⟩ := VM.rd_ok (buf := w.code) (i := w.pc.toNat) (by have := q.1; have := q.2; omega)
  refine ⟨n, ?_⟩
  unfold fetch
  rw [if_neg (by have := q.1; omega)]
  exact hn

/-- **C32** arguments are read only inside the bytecode: an instruction with an argument either finds its four bytes and one more
inside the bytecode, or sets the error `pc` without reading. -/
theorem C32_argument {E : Env} {vm : VM} (p : PcIn vm) (k : VM → Nat → Res VM) :
    (∃ a, Arg E vm a ∧ vm.pc + 5 < vm.code.length ∧ incPc vm (fun vm => getArg E vm k) = k { vm with pc := vm.pc + 5 } a) ∨
    (¬ vm.pc + 5 < vm.code.length ∧ ∃ vm', incPc vm (fun vm => getArg E vm k) = .ok vm' ∧ vm'.state = .error ∧ vm'.error = .pc) := by
  have h0 := p.1
  by_cases h : vm.pc + 5 < vm.code.length
  · left
    obtain ⟨a, h1, _⟩ := rd32_ok (h := E.endian) (buf := vm.code) (i := vm.pc.toNat + 1) (by omega)
    exact ⟨a, ⟨h1, h⟩, h, incArg p ⟨h1, h⟩⟩
  · right
    refine ⟨h, ?_⟩
    unfold incPc assertPc
    simp only
    split
    · exact ⟨_, rfl, rfl, rfl⟩
    · unfold getArg
      simp only
      rw [if_pos (by omega)]
      exact ⟨_, rfl, rfl, rfl⟩

/-- A machine after `pushcn 99; done` has executed its first instruction. -/
def wildClosure : Res VM := do
  let vm ← load host [0, 0, 38, 99, 0, 0, 0, 1] VM.new
  step host noFuns vm

/-- **C32** defect: `buzzvm_closure_call` does not check the address of a script closure; calling one whose address is outside the
bytecode fetches outside. -/
theorem C32_closure_call_unchecked : ∃ vm, wildClosure = .ok vm ∧ vm.state = .ready ∧ At vm 0 (.clo true 99 [1]) ∧
    closureCall host noFuns 5 0 vm = .ub := by
  refine ⟨_, rfl, rfl, ⟨0, rfl, ⟨_, rfl, rfl⟩⟩, by rfl⟩

/-- A jump to the last byte stays inside, a jump to the end is an error. -/
example : result [0, 0, 44, 7, 0, 0, 0, 1] = .ok (none, .none) ∧ result [0, 0, 44, 8, 0, 0, 0, 1] = .ok (none, .pc) := by decide +kernel

/-! ## C33 -/

/-- `n` steps. -/
def steps (E : Env) (F : CFuns) : Nat → VM → Res VM
  | 0, vm => .ok vm
  | n + 1, vm => do
    let vm ← step E F vm
    steps E F n vm

/-- **C33** a machine that is done, in error, stopped or without code is not changed by any number of steps. -/
theorem C33_final (E : Env) (F : CFuns) (vm : VM) (h : vm.state ≠ .ready) : ∀ n, steps E F n vm = .ok vm
  | 0 => rfl
  | n + 1 => by
    unfold steps
    have : step E F vm = .ok vm := by unfold step; rw [if_pos h]
    rw [this, Res.ok_bind]
    exact C33_final E F vm h n

/-- **C33** a machine in error ignores function calls. -/
theorem C33_error_stays (E : Env) (F : CFuns) (n : Nat) (name : Bytes) (argc : Nat) (vm : VM) (h : vm.state = .error) :
    functionCall E F n name argc vm = .ok vm := by
  unfold functionCall
  simp [h]

/-- **C33** a done machine treats a function call like a ready one. -/
theorem C33_done_revived (E : Env) (F : CFuns) (n : Nat) (name : Bytes) (argc : Nat) (vm : VM) (h : vm.state = .done) :
    functionCall E F n name argc vm = functionCall E F n name argc { vm with state := .ready } := by
  unfold functionCall
  simp [h]

/-- A script that defines the function `f`, is done, and then has `f` called: the machine is ready and the result is on the stack.
Code: `pushs 0; pushcn 20; gstore; nop; done` and at 20 `pushi 9; ret1; done`. -/
example : (do
    let vm ← load host [1, 0, 102, 0, 37, 0, 0, 0, 0, 38, 17, 0, 0, 0, 29, 0, 1, 36, 9, 0, 0, 0, 6, 1] VM.new
    let vm ← VM.run host noFuns 100 vm
    let w ← functionCall host noFuns 100 [102] 0 vm
    let o ← peek w 1
    pure (vm.state, w.state, o, w.stack.length, w.rest.length, w.frames.length)) = .ok (.done, .ready, .int 9, 1, 0, 0) := by
  decide +kernel

/-! ## C34 -/

/-- The number of operands an instruction needs on the stack. -/
def operands : Op → Nat
  | .dup | .pop | .un _ | .gload | .callc | .calls | .lstore | .jumpz | .jumpnz | .ret1 => 1
  | .bin _ | .gstore | .tget => 2
  | .tput => 3
  | _ => 0

theorem need_err {vm : VM} {n : Int} {k : Res VM} (h : (vm.stack.length : Int) < n) : need vm n k = .ok (setErr vm .stack) := by
  unfold need
  rw [if_pos (by omega)]

theorem incPc_err {v : VM} (hv : v.state = .error ∧ v.error = .stack) :
    ∃ v', incPc v pure = .ok v' ∧ v'.state = .error ∧ (v'.error = .stack ∨ v'.error = .pc) ∧ v'.stack = v.stack ∧ v'.heap = v.heap := by
  unfold incPc assertPc
  simp only
  split
  · exact ⟨_, rfl, rfl, .inr rfl, rfl, rfl⟩
  · exact ⟨_, rfl, hv.1, .inl hv.2, rfl, rfl⟩

/-- The machine ends in error for lack of operands (or of bytecode); its stack and objects are untouched. -/
def Refused (E : Env) (F : CFuns) (vm : VM) : Prop :=
  ∃ vm', step E F vm = .ok vm' ∧ vm'.state = .error ∧ (vm'.error = .stack ∨ vm'.error = .pc) ∧ vm'.stack = vm.stack ∧ Keeps vm vm'

/-- **C34** too few operands: the machine is put in error and the stack is not touched. -/
theorem C34_too_few {E : Env} {F : CFuns} {vm : VM} {op : Op} (w : At1 vm op) (h : vm.stack.length < operands op)
    (hf : op = .ret1 → vm.frames ≠ []) : Refused E F vm := by
  obtain ⟨h', sm', e, j, k, _⟩ := step_exec (E := E) (F := F) w
  unfold Refused
  rw [e]
  have arg : ∀ kk : VM → Nat → Res VM, (∀ a, ∃ vm', kk { vm with heap := h', strings := sm', pc := vm.pc + 5 } a = .ok vm' ∧ vm'.state = .error ∧
      (vm'.error = .stack ∨ vm'.error = .pc) ∧ vm'.stack = vm.stack ∧ Keeps vm vm') →
      ∃ vm', incPc { vm with heap := h', strings := sm' } (fun v => getArg E v kk) = .ok vm' ∧ vm'.state = .error ∧
        (vm'.error = .stack ∨ vm'.error = .pc) ∧ vm'.stack = vm.stack ∧ Keeps vm vm' := by
    intro kk hk
    rcases C32_argument (E := E) (vm := { vm with heap := h', strings := sm' }) w.pc kk with ⟨a, _, _, ea⟩ | ⟨h5, _⟩
    · rw [ea]; exact hk a
    · unfold incPc assertPc
      simp only
      split
      · exact ⟨_, rfl, rfl, .inr rfl, rfl, k⟩
      · unfold getArg
        rw [if_pos (by have h5 : ¬ vm.pc + 5 < vm.code.length := h5; simp only; omega)]
        exact ⟨_, rfl, rfl, .inr rfl, rfl, k⟩
  have inc : ∀ kk : VM → Res VM, (∃ vm', kk { vm with heap := h', strings := sm', pc := vm.pc + 1 } = .ok vm' ∧ vm'.state = .error ∧
      (vm'.error = .stack ∨ vm'.error = .pc) ∧ vm'.stack = vm.stack ∧ Keeps vm vm') →
      ∃ vm', incPc { vm with heap := h', strings := sm' } kk = .ok vm' ∧ vm'.state = .error ∧
        (vm'.error = .stack ∨ vm'.error = .pc) ∧ vm'.stack = vm.stack ∧ Keeps vm vm' := by
    intro kk hk
    unfold incPc assertPc
    simp only
    split
    · exact ⟨_, rfl, rfl, .inr rfl, rfl, k⟩
    · exact hk
  have emp : operands op = 1 → vm.stack = [] := by
    intro h1; rw [h1] at h; exact List.length_eq_zero_iff.mp (by omega)
  cases op <;> simp only [operands] at h emp <;> first | (exfalso; omega) | skip
  case dup =>
    refine inc _ ?_
    simp only [dup, emp, Res.pure_eq]
    exact ⟨_, rfl, rfl, .inl rfl, rfl, k⟩
  case pop =>
    simp only [exec, pop, emp, List.isEmpty_nil, if_true, ifReady, setErr]
    exact ⟨_, rfl, rfl, .inl rfl, rfl, k⟩
  case ret1 =>
    cases hfr : vm.frames with
    | nil => exact absurd hfr (hf rfl)
    | cons f fs =>
      simp only [exec, ret1, hfr]
      rw [need_err (by simp only; omega), Res.ok_bind]
      exact ⟨_, rfl, rfl, .inl rfl, rfl, k⟩
  case bin b =>
    simp only [exec, binop]
    rw [need_err (by simp only; omega), Res.ok_bind]
    obtain ⟨v', g1, g2, g3, g4, g5⟩ := incPc_err (v := setErr { vm with heap := h', strings := sm' } .stack) ⟨rfl, rfl⟩
    exact ⟨v', g1, g2, g3, g4, fun a c r hc => by rw [g5]; exact k a c r hc⟩
  case un u =>
    simp only [exec, unop]
    rw [need_err (by simp only; omega), Res.ok_bind]
    obtain ⟨v', g1, g2, g3, g4, g5⟩ := incPc_err (v := setErr { vm with heap := h', strings := sm' } .stack) ⟨rfl, rfl⟩
    exact ⟨v', g1, g2, g3, g4, fun a c r hc => by rw [g5]; exact k a c r hc⟩
  case gload =>
    refine inc _ ?_
    unfold gload
    rw [need_err (by simp only; omega)]
    exact ⟨_, rfl, rfl, .inl rfl, rfl, k⟩
  case gstore =>
    refine inc _ ?_
    unfold gstore
    rw [need_err (by simp only; omega)]
    exact ⟨_, rfl, rfl, .inl rfl, rfl, k⟩
  case tput =>
    simp only [exec, tput]
    rw [need_err (by simp only; omega), Res.ok_bind]
    exact ⟨_, rfl, rfl, .inl rfl, rfl, k⟩
  case tget =>
    simp only [exec, tget]
    rw [need_err (by simp only; omega), Res.ok_bind]
    exact ⟨_, rfl, rfl, .inl rfl, rfl, k⟩
  case callc =>
    refine inc _ ?_
    unfold call
    rw [need_err (by simp only; omega), Res.ok_bind]
    exact ⟨_, rfl, rfl, .inl rfl, rfl, k⟩
  case calls =>
    refine inc _ ?_
    unfold call
    rw [need_err (by simp only; omega), Res.ok_bind]
    exact ⟨_, rfl, rfl, .inl rfl, rfl, k⟩
  case lstore =>
    refine arg _ (fun a => ?_)
    unfold lstore
    rw [need_err (by simp only; omega)]
    exact ⟨_, rfl, rfl, .inl rfl, rfl, k⟩
  case jumpz =>
    refine arg _ (fun a => ?_)
    unfold jumpIf
    rw [need_err (by simp only; omega)]
    exact ⟨_, rfl, rfl, .inl rfl, rfl, k⟩
  case jumpnz =>
    refine arg _ (fun a => ?_)
    unfold jumpIf
    rw [need_err (by simp only; omega)]
    exact ⟨_, rfl, rfl, .inl rfl, rfl, k⟩

/-- **C34** a call with `n` arguments needs the closure and the `n` arguments below the count. -/
theorem C34_call_too_few {E : Env} {F : CFuns} {vm : VM} {op : Op} {n : Nat} (hop : op ∈ [Op.callc, .calls]) (w : At1 vm op)
    (hn : Val vm 0 (.int n)) (hl : vm.stack.length < n + 2) (hm : n < 2147483647) :
    ∃ vm', step E F vm = .ok vm' ∧ Failed vm vm' .stack ∧ Keeps vm vm' ∧ Rest vm vm' := by
  obtain ⟨h', sm', e, j, k, _⟩ := step_exec (E := E) (F := F) w
  rw [e]
  have px := (hn.keep k rfl).peek
  simp only [Nat.zero_add, Nat.cast_one] at px
  have h0 := w.pc.1
  by_cases hp : vm.pc + 1 < vm.code.length
  · have key : ∀ sw, call F sw { vm with heap := h', strings := sm', pc := vm.pc + 1 } =
        .ok (setErr (popN { vm with heap := h', strings := sm', pc := vm.pc + 1 } 1) .stack) := by
      intro sw
      unfold call need
      have p1 : peek { vm with heap := h', strings := sm', pc := vm.pc + 1 } 1 = .ok (.int n) := px.1
      rw [if_neg (by show ¬ ((vm.stack.length : Int) - 1 < 0); have : 0 < vm.stack.length := px.2; omega), p1, Res.ok_bind]
      simp only
      rw [if_neg (by omega), if_pos (by simp only [popN, List.length_drop]; have : 0 < vm.stack.length := px.2; omega)]
    simp only [List.mem_cons, List.not_mem_nil, or_false] at hop
    rcases hop with rfl | rfl <;> simp only [exec] <;> rw [inc1 (v := { vm with heap := h', strings := sm' }) w.pc hp, key, Res.ok_bind] <;>
      exact ⟨_, rfl, ⟨rfl, .inl rfl⟩, k, ⟨rfl, rfl, rfl, rfl, rfl, rfl, rfl⟩⟩
  · have key : ∀ kk, incPc { vm with heap := h', strings := sm' } kk = .ok (setErr { vm with heap := h', strings := sm', pc := vm.pc + 1 } .pc) := by
      intro kk
      unfold incPc assertPc
      simp only
      rw [if_pos (by omega)]
    simp only [List.mem_cons, List.not_mem_nil, or_false] at hop
    rcases hop with rfl | rfl <;> simp only [exec] <;> rw [key] <;>
      exact ⟨_, rfl, ⟨rfl, .inr ⟨rfl, by omega⟩⟩, k, ⟨rfl, rfl, rfl, rfl, rfl, rfl, rfl⟩⟩

/-- Operands of the wrong type, per instruction. -/
inductive WrongType (vm : VM) : Op → Prop where
  | gload {o : Obj} : Val vm 0 o → (∀ i s, o ≠ .str i s) → WrongType vm .gload
  | gstore {o : Obj} : Val vm 1 o → (∀ i s, o ≠ .str i s) → WrongType vm .gstore
  | put {c : Cell} : At vm 2 c → (∀ t, c ≠ .tab t) → WrongType vm .tput
  | putKey {t : Table.Tbl (Nat × Nat)} {o : Obj} : At vm 2 (.tab t) → Val vm 1 o → NoNumber o → (∀ i s, o ≠ .str i s) → WrongType vm .tput
  | get {c : Cell} : At vm 1 c → (∀ t, c ≠ .tab t) → WrongType vm .tget
  | arith {b : Bin} {x y : Obj} : b ∈ [Bin.add, .sub, .mul, .div, .mod, .pow] → Val vm 1 x → Val vm 0 y → NoNumber x ∨ NoNumber y → WrongType vm (.bin b)
  | bits {b : Bin} {x y : Obj} : b ∈ [Bin.band, .bor, .shl, .shr] → Val vm 1 x → Val vm 0 y → (∀ v, x ≠ .int v) ∨ (∀ v, y ≠ .int v) → WrongType vm (.bin b)
  | minus {o : Obj} : Val vm 0 o → NoNumber o → WrongType vm (.un .unm)
  | bnot {o : Obj} : Val vm 0 o → (∀ v, o ≠ .int v) → WrongType vm (.un .bnot)
  | count {op : Op} {o : Obj} : op ∈ [Op.callc, .calls] → Val vm 0 o → (∀ v, o ≠ .int v) → WrongType vm op
  | callee {op : Op} {n : Nat} {c : Cell} : op ∈ [Op.callc, .calls] → Val vm 0 (.int n) → n < 2147483647 → At vm (n + 1) c →
      (∀ b r l, c ≠ .clo b r l) → WrongType vm op

theorem step_un_type {E : Env} {F : CFuns} {vm : VM} {u : Un} {x : Obj} (w : At1 vm (.un u)) (hx : Val vm 0 x) (hv : unV u x = none) :
    ∃ vm', step E F vm = .ok vm' ∧ Failed vm vm' .type ∧ Keeps vm vm' ∧ Rest vm vm' := by
  obtain ⟨h', sm', e, j, k, _⟩ := step_exec (E := E) (F := F) w
  rw [e]
  have px := (hx.keep k rfl).peek
  simp only [Nat.zero_add, Nat.cast_one] at px
  simp only [exec, unop, need]
  rw [if_neg (by show ¬ ((vm.stack.length : Int) - 1 < 0); have : 0 < vm.stack.length := px.2; omega), px.1, Res.ok_bind, hv]
  simp only [Res.ok_bind, Res.pure_eq]
  cases hb : unKeep u
  · simp only [Bool.false_eq_true, if_false]
    obtain ⟨v', h1, h2, h3, h4, h6⟩ := incPc_failed (v := setErr (popN { vm with heap := h', strings := sm' } 1) .type) rfl rfl w.pc.1
    exact ⟨v', h1, h2, fun a c r hc => by rw [h4]; exact k a c r hc, ⟨h6.rest, h6.frames, h6.gsyms, h6.code, h6.swarmstack, h6.other, h6.nfuns⟩⟩
  · simp only [if_true]
    obtain ⟨v', h1, h2, h3, h4, h6⟩ := incPc_failed (v := setErr { vm with heap := h', strings := sm' } .type) rfl rfl w.pc.1
    exact ⟨v', h1, h2, fun a c r hc => by rw [h4]; exact k a c r hc, ⟨h6.rest, h6.frames, h6.gsyms, h6.code, h6.swarmstack, h6.other, h6.nfuns⟩⟩

/-- **C34** operands of the wrong type: the machine is put in error; objects, other stacks and variables are untouched. -/
theorem C34_wrong_type {E : Env} {F : CFuns} {vm : VM} {op : Op} (w : At1 vm op) (h : WrongType vm op) :
    ∃ vm', step E F vm = .ok vm' ∧ Failed vm vm' .type ∧ Keeps vm vm' ∧ Rest vm vm' := by
  have h0 := w.pc.1
  have same : ∀ {v w : VM}, v.rest = w.rest → v.frames = w.frames → v.gsyms = w.gsyms → v.code = w.code → v.swarmstack = w.swarmstack →
    v.other = w.other → v.nfuns = w.nfuns → Rest w v := fun a b c d e f g => ⟨a, b, c, d, e, f, g⟩
  have bnd : ∀ {i o}, Val vm i o → i < vm.stack.length := by
    rintro i o ⟨a, c, h1, _⟩; exact (List.getElem?_eq_some_iff.mp h1).1
  have bndA : ∀ {i c}, At vm i c → i < vm.stack.length := by
    rintro i c ⟨a, h1, _⟩; exact (List.getElem?_eq_some_iff.mp h1).1
  -- instructions that advance the program counter first
  have inc : ∀ kk : (h' : Heap) → (sm' : Strman.SM Bytes) → VM → Res VM,
      (∀ h' sm', Keeps vm { vm with heap := h', strings := sm' } → exec E F { vm with heap := h', strings := sm' } op =
        incPc { vm with heap := h', strings := sm' } (kk h' sm')) →
      (∀ h' sm', Keeps vm { vm with heap := h', strings := sm' } → ∃ vm', kk h' sm' { vm with heap := h', strings := sm', pc := vm.pc + 1 } = .ok vm' ∧
        Failed vm vm' .type ∧ Keeps vm vm' ∧ Rest vm vm') →
      ∃ vm', step E F vm = .ok vm' ∧ Failed vm vm' .type ∧ Keeps vm vm' ∧ Rest vm vm' := by
    intro kk he hk
    obtain ⟨h', sm', e, j, k, _⟩ := step_exec (E := E) (F := F) w
    rw [e, he h' sm' k]
    by_cases hp : vm.pc + 1 < vm.code.length
    · rw [inc1 (v := { vm with heap := h', strings := sm' }) w.pc hp]
      exact hk h' sm' k
    · unfold incPc assertPc
      simp only
      rw [if_pos (by omega)]
      exact ⟨_, rfl, ⟨rfl, .inr ⟨rfl, by omega⟩⟩, k, same rfl rfl rfl rfl rfl rfl rfl⟩
  have callk : ∀ sw, (∀ h' sm', Keeps vm { vm with heap := h', strings := sm' } → ∃ vm', call F sw { vm with heap := h', strings := sm', pc := vm.pc + 1 } = .ok vm' ∧
        Failed vm vm' .type ∧ Keeps vm vm' ∧ Rest vm vm') → op = (if sw then .calls else .callc) →
      ∃ vm', step E F vm = .ok vm' ∧ Failed vm vm' .type ∧ Keeps vm vm' ∧ Rest vm vm' := by
    intro sw hk ho
    refine inc (fun _ _ v => do
      let v ← call F sw v
      ifReady v (fun v => assertPc v pure)) (fun h' sm' _ => by subst ho; cases sw <;> rfl) (fun h' sm' k => ?_)
    obtain ⟨v', e, f, kk, rr⟩ := hk h' sm' k
    rw [e, Res.ok_bind]
    unfold ifReady
    rw [if_neg (by rw [f.1]; simp)]
    exact ⟨v', rfl, f, kk, rr⟩
  have callall : (∀ sw h' sm', Keeps vm { vm with heap := h', strings := sm' } → ∃ vm', call F sw { vm with heap := h', strings := sm', pc := vm.pc + 1 } = .ok vm' ∧
        Failed vm vm' .type ∧ Keeps vm vm' ∧ Rest vm vm') → op ∈ [Op.callc, .calls] →
      ∃ vm', step E F vm = .ok vm' ∧ Failed vm vm' .type ∧ Keeps vm vm' ∧ Rest vm vm' := by
    intro hk ho
    simp only [List.mem_cons, List.not_mem_nil, or_false] at ho
    rcases ho with rfl | rfl
    · exact callk false (hk false) rfl
    · exact callk true (hk true) rfl
  cases h with
  | @gload o hv hn =>
    refine inc (fun _ _ => gload) (fun _ _ _ => rfl) (fun h' sm' k => ?_)
    have px := (hv.keep k rfl).peek
    simp only [Nat.zero_add, Nat.cast_one] at px
    unfold gload need
    have p1 : peek { vm with heap := h', strings := sm', pc := vm.pc + 1 } 1 = .ok o := px.1
    rw [if_neg (by show ¬ ((vm.stack.length : Int) - 1 < 0); have := bnd hv; omega), p1, Res.ok_bind]
    cases o <;> first | exact absurd rfl (hn _ _) | exact ⟨_, rfl, ⟨rfl, .inl rfl⟩, k, same rfl rfl rfl rfl rfl rfl rfl⟩
  | @gstore o hv hn =>
    refine inc (fun _ _ => gstore) (fun _ _ _ => rfl) (fun h' sm' k => ?_)
    have px := (hv.keep k rfl).peek
    simp only [Nat.reduceAdd, Nat.cast_ofNat] at px
    unfold gstore need
    have p1 : peek { vm with heap := h', strings := sm', pc := vm.pc + 1 } 2 = .ok o := px.1
    rw [if_neg (by show ¬ ((vm.stack.length : Int) - 2 < 0); have := bnd hv; omega), p1, Res.ok_bind]
    cases o <;> first | exact absurd rfl (hn _ _) | exact ⟨_, rfl, ⟨rfl, .inl rfl⟩, k, same rfl rfl rfl rfl rfl rfl rfl⟩
  | @put c hv hn =>
    obtain ⟨h', sm', e, j, k, _⟩ := step_exec (E := E) (F := F) w
    rw [e]
    obtain ⟨a, p1, p2, p3, p4, p5⟩ := (hv.keep k rfl).peekCell
    simp only [Nat.reduceAdd, Nat.cast_ofNat] at p3 p4
    simp only [exec, tput, need]
    rw [if_neg (by show ¬ ((vm.stack.length : Int) - 3 < 0); have := bndA hv; omega), p3, Res.ok_bind, p4, Res.ok_bind]
    cases c <;> first | exact absurd rfl (hn _) | exact ⟨_, rfl, ⟨rfl, .inl rfl⟩, k, same rfl rfl rfl rfl rfl rfl rfl⟩
  | @putKey t o hv hk h1 h2 =>
    obtain ⟨h', sm', e, j, k, _⟩ := step_exec (E := E) (F := F) w
    rw [e]
    obtain ⟨a, p1, p2, p3, p4, p5⟩ := (hv.keep k rfl).peekCell
    simp only [Nat.reduceAdd, Nat.cast_ofNat] at p3 p4
    have q := (hk.keep k rfl).peek
    simp only [Nat.reduceAdd, Nat.cast_ofNat] at q
    obtain ⟨a2, c2, g2, k2, q2, r2, _⟩ := peek_ok j (n := 1) (by have := bndA hv; show 1 < vm.stack.length; omega)
    obtain ⟨a1, c1, g1, k1, q1, r1, _⟩ := peek_ok j (n := 0) (by have := bndA hv; show 0 < vm.stack.length; omega)
    simp only [Nat.zero_add, Nat.cast_one, Nat.reduceAdd, Nat.cast_ofNat] at q1 q2 r1 r2
    have hkey : isKey o = false := by
      cases o <;> first | rfl | exact absurd rfl (h1.1 _) | exact absurd rfl (h1.2 _) | exact absurd rfl (h2 _ _)
    simp only [exec, tput, need]
    rw [if_neg (by show ¬ ((vm.stack.length : Int) - 3 < 0); have := bndA hv; omega), p3, Res.ok_bind, p4, Res.ok_bind]
    simp only [q1, r1, q2, q.1, Res.ok_bind, hkey]
    exact ⟨_, rfl, ⟨rfl, .inl rfl⟩, k, same rfl rfl rfl rfl rfl rfl rfl⟩
  | @get c hv hn =>
    obtain ⟨h', sm', e, j, k, _⟩ := step_exec (E := E) (F := F) w
    rw [e]
    obtain ⟨a, p1, p2, p3, p4, p5⟩ := (hv.keep k rfl).peekCell
    simp only [Nat.reduceAdd, Nat.cast_ofNat] at p3 p4
    simp only [exec, tget, need]
    rw [if_neg (by show ¬ ((vm.stack.length : Int) - 2 < 0); have := bndA hv; omega), p4, Res.ok_bind]
    cases c <;> first | exact absurd rfl (hn _) | exact ⟨_, rfl, ⟨rfl, .inl rfl⟩, k, same rfl rfl rfl rfl rfl rfl rfl⟩
  | arith hb hx hy hn =>
    obtain ⟨v', a, b, c, d, _⟩ := C37_type_error (E := E) (F := F) w hb hx hy hn
    exact ⟨v', a, b, c, d⟩
  | @bits b x y hb hx hy hn =>
    obtain ⟨v', a, b, _, c, d⟩ := step_bin_type (E := E) (F := F) w hx hy (by
      have key : ∀ f, bitV f x y = none := by
        intro f
        rcases hn with hn | hn
        · cases x <;> first | rfl | exact absurd rfl (hn _)
        · cases x <;> cases y <;> first | rfl | exact absurd rfl (hn _)
      simp only [List.mem_cons, List.not_mem_nil, or_false] at hb
      rcases hb with rfl | rfl | rfl | rfl <;> exact key _)
    exact ⟨v', a, b, c, d⟩
  | @minus o hv hn =>
    refine step_un_type w hv ?_
    cases o <;> first | rfl | exact absurd rfl (hn.1 _) | exact absurd rfl (hn.2 _)
  | @bnot o hv hn =>
    refine step_un_type w hv ?_
    cases o <;> first | rfl | exact absurd rfl (hn _)
  | @count _ o hop hv hn =>
    refine callall (fun sw h' sm' k => ?_) hop
    have px := (hv.keep k rfl).peek
    simp only [Nat.zero_add, Nat.cast_one] at px
    unfold call need
    have p1 : peek { vm with heap := h', strings := sm', pc := vm.pc + 1 } 1 = .ok o := px.1
    rw [if_neg (by show ¬ ((vm.stack.length : Int) - 1 < 0); have := bnd hv; omega), p1, Res.ok_bind]
    cases o <;> first | exact absurd rfl (hn _) | exact ⟨_, rfl, ⟨rfl, .inl rfl⟩, k, same rfl rfl rfl rfl rfl rfl rfl⟩
  | @callee _ n c hop hv hm hc hn =>
    refine callall (fun sw h' sm' k => ?_) hop
    have px := (hv.keep k rfl).peek
    simp only [Nat.zero_add, Nat.cast_one] at px
    obtain ⟨a, g1, g2⟩ := hc.keep k rfl
    have hc' : At (popN { vm with heap := h', strings := sm', pc := vm.pc + 1 } 1) n c := by
      refine ⟨a, ?_, g2⟩
      have g1 : vm.stack[n + 1]? = some a := g1
      simp only [popN, List.getElem?_drop]
      rw [Nat.add_comm 1 n]; exact g1
    obtain ⟨_, _, _, _, p4, _⟩ := hc'.peekCell
    unfold call need
    have p1 : peek { vm with heap := h', strings := sm', pc := vm.pc + 1 } 1 = .ok (.int n) := px.1
    rw [if_neg (by show ¬ ((vm.stack.length : Int) - 1 < 0); have := bnd hv; omega), p1, Res.ok_bind]
    simp only
    rw [if_neg (by omega), if_neg (by simp only [popN, List.length_drop]; have := bndA hc; omega)]
    have e1 : ((n : Int) + 1) = ((n + 1 : Nat) : Int) := by omega
    rw [e1, p4, Res.ok_bind]
    cases c <;> first | exact absurd rfl (hn _ _ _) | exact ⟨_, rfl, ⟨rfl, .inl rfl⟩, k, same rfl rfl rfl rfl rfl rfl rfl⟩

/-- **C34** the exceptions: a negative argument count and a return or access to locals outside any function read outside the stack. -/
theorem C34_exceptions : (∃ vm, VInv vm ∧ vm.state = .ready ∧ PcIn vm ∧ Fetched vm .callc ∧ Val vm 0 (.int (-1)) ∧ step host noFuns vm = .ub) ∧
    (∃ vm, VInv vm ∧ vm.state = .ready ∧ PcIn vm ∧ Fetched vm .ret0 ∧ step host noFuns vm = .ub) ∧
    (∃ vm, VInv vm ∧ vm.state = .ready ∧ PcIn vm ∧ Fetched vm .lload ∧ step host noFuns vm = .ub) := by
  have start : ∀ code : Bytes, code.length ≤ 2147483647 → rd16 Endian.little code 0 = .ok 0 → 2 < code.length → ∃ vm, load host code VM.new = .ok vm ∧
      VInv vm ∧ vm.state = .ready ∧ vm.code = code ∧ PcIn vm ∧ vm.pc = 2 := by
    intro code hc h0 h2
    have hl : load host code VM.new = .ok { VM.new with state := .ready, code := code, pc := 2 } := by
      unfold load
      rw [show rd16 host.endian code 0 = .ok 0 from h0]
      rfl
    obtain ⟨a, b, c, d, _⟩ := load_inv hc (fun n hn => by rw [show host.endian = Endian.little from rfl, h0] at hn; cases hn; omega) hl
    exact ⟨_, hl, a, b, c, ⟨(by show (0 : Int) ≤ 2; decide), by simp only; omega⟩, rfl⟩
  refine ⟨?_, ?_, ?_⟩
  · obtain ⟨vm, hl, a, b, c, d, e⟩ := start [0, 0, 36, 255, 255, 255, 255, 33, 1] (by decide) (by rfl) (by decide)
    have hs : ∃ v, step host noFuns vm = .ok v ∧ v.state = .ready ∧ Fetched v .callc ∧ Val v 0 (.int (-1)) ∧ step host noFuns v = .ub := by
      have : vm = { VM.new with state := .ready, code := [0, 0, 36, 255, 255, 255, 255, 33, 1], pc := 2 } := by
        have h2 : load host [0, 0, 36, 255, 255, 255, 255, 33, 1] VM.new = .ok { VM.new with state := .ready, code := [0, 0, 36, 255, 255, 255, 255, 33, 1], pc := 2 } := by rfl
        rw [h2] at hl; cases hl; rfl
      subst this
      exact ⟨_, rfl, rfl, ⟨33, rfl, rfl⟩, ⟨0, _, rfl, ⟨_, rfl, rfl⟩, rfl⟩, rfl⟩
    obtain ⟨v, h1, h2, h3, h4, h5⟩ := hs
    have q := step_out (E := host) (F := noFuns) noFuns_ok a (fun _ => d)
    rw [h1] at q
    exact ⟨v, q.1, h2, q.2 h2, h3, h4, h5⟩
  · obtain ⟨vm, hl, a, b, c, d, e⟩ := start [0, 0, 5] (by decide) (by rfl) (by decide)
    refine ⟨vm, a, b, d, ?_⟩
    have h2 : load host [0, 0, 5] VM.new = .ok { VM.new with state := .ready, code := [0, 0, 5], pc := 2 } := by rfl
    rw [h2] at hl; cases hl
    exact ⟨⟨5, rfl, rfl⟩, rfl⟩
  · obtain ⟨vm, hl, a, b, c, d, e⟩ := start [0, 0, 41, 0, 0, 0, 0, 1] (by decide) (by rfl) (by decide)
    refine ⟨vm, a, b, d, ?_⟩
    have h2 : load host [0, 0, 41, 0, 0, 0, 0, 1] VM.new = .ok { VM.new with state := .ready, code := [0, 0, 41, 0, 0, 0, 0, 1], pc := 2 } := by rfl
    rw [h2] at hl; cases hl
    exact ⟨⟨41, rfl, rfl⟩, rfl⟩

/-- `add` on one operand, a call of an integer. -/
example : result [0, 0, 36, 2, 0, 0, 0, 7, 1] = .ok (some (.int 2), .stack) ∧
    result [0, 0, 36, 2, 0, 0, 0, 36, 0, 0, 0, 0, 33, 1] = .ok (some (.int 2), .type) := by decide +kernel

/-! ## C56 -/

theorem reach_live {vm : VM} (i : VInv vm) (a : Nat) (h : Reach vm.heap (roots vm).Mem a) : ∃ c, Holds vm.heap a c := by
  induction h with
  | root r => exact i.roots _ r
  | @step a b _ p ih =>
    obtain ⟨m, h1, h2⟩ := points_iff.mp p
    have hk := i.cells a m.cell ⟨m, h1, rfl⟩
    cases hm : m.cell with
    | atom o => simp [hm, children] at h2
    | clo n r l => rw [hm] at hk h2; exact hk.2 b h2
    | tab t =>
      rw [hm] at hk h2
      simp only [children, List.mem_flatMap] at h2
      obtain ⟨e, he, hb⟩ := h2
      obtain ⟨_, _, k3, k4⟩ := hk.2 e he
      simp only [List.mem_cons, List.not_mem_nil, or_false] at hb
      rcases hb with rfl | rfl
      · exact ⟨_, k3⟩
      · exact k4

/-- **C56** the memory of a running script: every address held on a stack, in local or global symbols, in table entries and closures of
reachable objects refers to a live object, whatever number of steps a loaded script executes. -/
theorem C56_memory {E : Env} {F : CFuns} (hF : FOk F) {code : Bytes} {vm w : VM} (hc : code.length ≤ 2147483647)
    (hn : ∀ n, rd16 E.endian code 0 = .ok n → n ≤ 65534) (hl : load E code VM.new = .ok vm) (hp : vm.pc < code.length) (h : Reached E F vm w) :
    ∀ a, Reach w.heap (roots w).Mem a → ∃ c, Holds w.heap a c := by
  obtain ⟨i, _, h2, h3, _⟩ := load_inv hc hn hl
  have q := (Reached.fine hF i (fun _ => ⟨h3, by rw [h2]; exact hp⟩) h).1
  exact reach_live q

/-- **C56** a step of a loaded script that does not end normally has one of the causes listed in `Cause`. -/
theorem C56_causes {E : Env} {F : CFuns} (hF : FOk F) {code : Bytes} {vm w : VM} (hc : code.length ≤ 2147483647)
    (hn : ∀ n, rd16 E.endian code 0 = .ok n → n ≤ 65534) (hl : load E code VM.new = .ok vm) (hp : vm.pc < code.length) (h : Reached E F vm w) :
    (∃ w', step E F w = .ok w') ∨ (∃ op, Fetched w op ∧ ((step E F w = .ub ∧ Cause E F w op .ub) ∨ (step E F w = .abort ∧ Cause E F w op .abort) ∨
      (step E F w = .hang ∧ Cause E F w op .hang))) := by
  obtain ⟨i, _, h2, h3, _⟩ := load_inv hc hn hl
  have q := Reached.fine hF i (fun _ => ⟨h3, by rw [h2]; exact hp⟩) h
  have o := step_out (E := E) hF q.1 q.2
  cases hs : step E F w with
  | ok v => exact .inl ⟨v, rfl⟩
  | ub => rw [hs] at o; obtain ⟨_, op, h1, h2⟩ := o; exact .inr ⟨op, h1, .inl ⟨rfl, h2⟩⟩
  | abort => rw [hs] at o; obtain ⟨_, op, h1, h2⟩ := o; exact .inr ⟨op, h1, .inr (.inl ⟨rfl, h2⟩)⟩
  | hang => rw [hs] at o; obtain ⟨_, op, h1, h2⟩ := o; exact .inr ⟨op, h1, .inr (.inr ⟨rfl, h2⟩)⟩

theorem call_agree {F G : CFuns} {vm : VM} (h : ∀ n, n < vm.nfuns → F n = G n) (sw : Bool) : call F sw vm = call G sw vm := by
  unfold call need
  split
  · rfl
  cases peek vm 1 with
  | ok o =>
    rw [Res.ok_bind, Res.ok_bind]
    cases o with
    | int a =>
      simp only
      split
      · rfl
      split
      · rfl
      cases peekCell (popN vm 1) (a + 1) with
      | ok c =>
        rw [Res.ok_bind, Res.ok_bind]
        cases c with
        | clo native ref act =>
          simp only
          split
          · rfl
          rename_i hn
          cases native with
          | true => rfl
          | false =>
            simp only [Bool.false_eq_true, if_false]
            split
            · rfl
            rename_i h0
            rw [h ref.toNat]
            have hn : ¬ (false = false ∧ ref ≥ (vm.nfuns : Int)) := hn
            simp only [true_and] at hn
            omega
        | _ => rfl
      | _ => rfl
    | _ => rfl
  | _ => rfl

/-- **C56** the table of C functions is read inside its bounds: what a step does depends only on the functions registered so far. -/
theorem C56_registered {E : Env} {F G : CFuns} {vm : VM} (h : ∀ n, n < vm.nfuns → F n = G n) : step E F vm = step E G vm := by
  unfold step
  split
  · rfl
  cases hc : collect vm with
  | ok u =>
    rw [Res.ok_bind, Res.ok_bind]
    have hn : u.nfuns = vm.nfuns := by
      unfold collect at hc
      obtain ⟨r, _, hr⟩ := Res.bind_eq_ok.mp hc
      cases hr
      rfl
    cases fetch u with
    | ok k =>
      rw [Res.ok_bind, Res.ok_bind]
      cases opcodes[k]? with
      | none => rfl
      | some op =>
        simp only
        have hc : ∀ sw, incPc u (fun vm => do
            let vm ← call F sw vm
            ifReady vm (fun vm => assertPc vm pure)) = incPc u (fun vm => do
            let vm ← call G sw vm
            ifReady vm (fun vm => assertPc vm pure)) := by
          intro sw
          unfold incPc
          show (if _ then _ else _) = if _ then _ else _
          split
          · rfl
          · simp only
            rw [call_agree (F := F) (G := G) (by intro n hlt; exact h n (by rw [← hn]; exact hlt)) sw]
        cases op <;> first | rfl | exact hc _
    | _ => rfl
  | _ => rfl

/-- The script that calls the C function 0: with no registered function an error, with one the function is called. -/
def callsZero (n : Nat) : Res Err := do
  let vm ← load host [0, 0, 2, 39, 0, 0, 0, 0, 36, 0, 0, 0, 0, 33, 1] VM.new
  let vm ← run host (fun _ _ => .abort) 10 { vm with nfuns := n }
  pure vm.error

example : callsZero 0 = .ok .flist ∧ callsZero 1 = .abort := by decide +kernel

end Buzz.Props
