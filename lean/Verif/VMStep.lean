import Verif.VMSafe

/-
What one step does, stated on the machine before the collection with which the step begins.
-/
namespace Buzz.VM

open Buzz.F32 Buzz.Msg Buzz.Heap Buzz.Props

/-- Every object that `vm` can reach exists unchanged in `vm'`. -/
def Keeps (vm vm' : VM) : Prop := ∀ a c, Reach vm.heap (roots vm).Mem a → Holds vm.heap a c → Holds vm'.heap a c

/-- The machine can execute its next instruction, which is `op`. -/
structure At1 (vm : VM) (op : Op) : Prop where
  inv : VInv vm
  ready : vm.state = .ready
  pc : PcIn vm
  op : Fetched vm op

/-- The machine goes on at `p`, or is in error because `p` is outside the bytecode. -/
def Next (vm' : VM) (p : Int) : Prop :=
  vm'.pc = p ∧ ((0 ≤ p ∧ p < vm'.code.length ∧ vm'.state = .ready) ∨ (¬ (0 ≤ p ∧ p < vm'.code.length) ∧ vm'.state = .error ∧ vm'.error = .pc))

/-- Everything but stack, heap, strings, program counter and state is the same. -/
structure Rest (vm vm' : VM) : Prop where
  rest : vm'.rest = vm.rest
  frames : vm'.frames = vm.frames
  gsyms : vm'.gsyms = vm.gsyms
  code : vm'.code = vm.code
  swarmstack : vm'.swarmstack = vm.swarmstack
  other : vm'.other = vm.other
  nfuns : vm'.nfuns = vm.nfuns

/-- The `k` topmost stack elements are replaced by one new object with content `c`; nothing else changes. -/
structure Replaced (vm vm' : VM) (k : Nat) (c : Cell) : Prop where
  stack : ∃ a, vm'.stack = a :: vm.stack.drop k ∧ Holds vm'.heap a c
  keeps : Keeps vm vm'
  same : Rest vm vm'

theorem mem_roots_stack {vm : VM} {a : Nat} (h : a ∈ vm.stack) : (roots vm).Mem a := by
  refine .inr (.inl ⟨vm.stack.reverse, ?_, by simpa using h⟩)
  simp [roots]

theorem mem_roots_rest {vm : VM} {a : Nat} {s : List Nat} (hs : s ∈ vm.rest) (h : a ∈ s) : (roots vm).Mem a := by
  refine .inr (.inl ⟨s.reverse, ?_, by simpa using h⟩)
  simp [roots, hs]

theorem mem_roots_frames {vm : VM} {a : Nat} {f : Frame} (hs : f ∈ vm.frames) (h : a ∈ f.syms) : (roots vm).Mem a := by
  refine .inr (.inr (.inl ⟨f.syms, ?_, h⟩))
  simp only [roots, List.mem_reverse, List.mem_map]
  exact ⟨f, hs, rfl⟩

theorem mem_roots_gsyms {vm : VM} {e : Nat × Nat} (hs : e ∈ vm.gsyms) : (roots vm).Mem e.2 := .inl ⟨e, hs, rfl⟩

/-- A step is a collection followed by the instruction. -/
theorem step_exec {E : Env} {F : CFuns} {vm : VM} {op : Op} (w : At1 vm op) : ∃ h' sm', step E F vm = exec E F { vm with heap := h', strings := sm' } op ∧
    VInv { vm with heap := h', strings := sm' } ∧ Keeps vm { vm with heap := h', strings := sm' } ∧
    (∀ a c, Holds h' a c → Holds vm.heap a c) ∧ (∀ sid s, Strman.get sm' sid = some s → Strman.get vm.strings sid = some s) := by
  obtain ⟨i, hs, p, n, hn, ho⟩ := w
  obtain ⟨h', sm', e, j, hb, hk, hst⟩ := collect_spec i
  refine ⟨h', sm', ?_, j, fun a c r h => hk a c h r, hb, hst⟩
  have hf : fetch { vm with heap := h', strings := sm' } = .ok n := by
    unfold fetch
    rw [if_neg (by have := p.1; show ¬ vm.pc < 0; omega)]
    exact hn
  unfold step
  rw [if_neg (by simp [hs]), e, Res.ok_bind, hf, Res.ok_bind, ho]

theorem Val.keep {vm vm' : VM} (k : Keeps vm vm') (hs : vm'.stack = vm.stack) {i : Nat} {o : Obj} (h : Val vm i o) : Val vm' i o := by
  obtain ⟨a, c, h1, h2, h3⟩ := h
  exact ⟨a, c, by rw [hs]; exact h1, k a c (.root (mem_roots_stack (List.mem_of_getElem? h1))) h2, h3⟩

theorem At.keep {vm vm' : VM} (k : Keeps vm vm') (hs : vm'.stack = vm.stack) {i : Nat} {c : Cell} (h : At vm i c) : At vm' i c := by
  obtain ⟨a, h1, h2⟩ := h
  exact ⟨a, by rw [hs]; exact h1, k a c (.root (mem_roots_stack (List.mem_of_getElem? h1))) h2⟩

theorem Val.peek {vm : VM} {i : Nat} {o : Obj} (h : Val vm i o) : peek vm (i + 1 : Nat) = .ok o ∧ i < vm.stack.length := by
  obtain ⟨a, c, h1, ⟨m, h2, h3⟩, h4⟩ := h
  have hp : peekAddr vm (i + 1 : Nat) = .ok a := by
    unfold peekAddr
    rw [if_pos (by omega)]
    have : ((i + 1 : Nat) : Int).toNat - 1 = i := by omega
    rw [this, h1]
  have hd : deref vm.heap a = .ok m := by unfold deref; rw [h2]
  refine ⟨by simp only [VM.peek, hp, hd, h3, h4, Res.ok_bind, Res.pure_eq], ?_⟩
  exact (List.getElem?_eq_some_iff.mp h1).1

theorem At.peekCell {vm : VM} {i : Nat} {c : Cell} (h : At vm i c) : ∃ a, vm.stack[i]? = some a ∧ Holds vm.heap a c ∧
    peekAddr vm (i + 1 : Nat) = .ok a ∧ peekCell vm (i + 1 : Nat) = .ok c ∧ peek vm (i + 1 : Nat) = .ok (objOf a c) := by
  obtain ⟨a, h1, ⟨m, h2, h3⟩⟩ := h
  have hp : peekAddr vm (i + 1 : Nat) = .ok a := by
    unfold peekAddr
    rw [if_pos (by omega)]
    have : ((i + 1 : Nat) : Int).toNat - 1 = i := by omega
    rw [this, h1]
  have hd : deref vm.heap a = .ok m := by unfold deref; rw [h2]
  exact ⟨a, h1, ⟨m, h2, h3⟩, hp, by simp only [VM.peekCell, hp, hd, h3, Res.ok_bind, Res.pure_eq],
    by simp only [VM.peek, hp, hd, h3, Res.ok_bind, Res.pure_eq]⟩

/-- A value other than a table or closure is an object with this content. -/
theorem Val.atom {vm : VM} {i : Nat} {o : Obj} (h : Val vm i o) (h1 : ∀ a, o ≠ .tab a) (h2 : ∀ a, o ≠ .clo a) : At vm i (.atom o) := by
  obtain ⟨a, c, g1, g2, g3⟩ := h
  cases c with
  | atom o' => simp only [objOf] at g3; subst g3; exact ⟨a, g1, g2⟩
  | tab t => exact absurd g3.symm (h1 a)
  | clo n r l => exact absurd g3.symm (h2 a)

/-- The end of most instructions. -/
theorem incPc_next {v : VM} (hv : v.state = .ready) (h0 : 0 ≤ v.pc) :
    ∃ v', incPc v pure = .ok v' ∧ Next v' (v.pc + 1) ∧ v'.stack = v.stack ∧ v'.heap = v.heap ∧ v'.strings = v.strings ∧ Rest v v' := by
  unfold incPc assertPc
  simp only
  split
  · rename_i h
    exact ⟨_, rfl, ⟨rfl, .inr ⟨by simp [setErr]; omega, rfl, rfl⟩⟩, rfl, rfl, rfl, ⟨rfl, rfl, rfl, rfl, rfl, rfl, rfl⟩⟩
  · rename_i h
    exact ⟨_, rfl, ⟨rfl, .inl ⟨by omega, by simp; omega, hv⟩⟩, rfl, rfl, rfl, ⟨rfl, rfl, rfl, rfl, rfl, rfl, rfl⟩⟩

theorem Rest.refl (vm : VM) : Rest vm vm := ⟨rfl, rfl, rfl, rfl, rfl, rfl, rfl⟩

theorem Rest.trans {u v w : VM} (a : Rest u v) (b : Rest v w) : Rest u w :=
  ⟨b.rest.trans a.rest, b.frames.trans a.frames, b.gsyms.trans a.gsyms, b.code.trans a.code, b.swarmstack.trans a.swarmstack,
    b.other.trans a.other, b.nfuns.trans a.nfuns⟩

/-- A binary instruction with a result. -/
theorem step_bin {E : Env} {F : CFuns} {vm : VM} {b : Bin} {x y v : Obj} (w : At1 vm (.bin b)) (hx : Val vm 1 x) (hy : Val vm 0 y)
    (hv : binV E b x y = some (.ok v)) : ∃ vm', step E F vm = .ok vm' ∧ Replaced vm vm' 2 (.atom v) ∧ Next vm' (vm.pc + 1) := by
  obtain ⟨h', sm', e, j, k, _⟩ := step_exec (E := E) (F := F) w
  rw [e]
  have px := (hx.keep k rfl).peek
  have py := (hy.keep k rfl).peek
  simp only [Nat.zero_add, Nat.cast_one, Nat.reduceAdd, Nat.cast_ofNat] at px py
  simp only [exec, binop, need]
  rw [if_neg (by have := px.2; show ¬ ((vm.stack.length : Int) - 2 < 0); have : 1 < vm.stack.length := px.2; omega), py.1, Res.ok_bind, px.1, Res.ok_bind, hv]
  simp only [Res.ok_bind, Res.pure_eq]
  obtain ⟨v', h1, h2, h3, h4, h5, h6⟩ := incPc_next (v := push (popN { vm with heap := h', strings := sm' } 2) (.atom v)) w.ready w.pc.1
  refine ⟨v', h1, ⟨⟨_, h3, by rw [h4]; exact holds_new j.heap _⟩, fun a c r hc => ?_, ?_⟩, h2⟩
  · rw [h4]; exact holds_old j.heap (k a c r hc)
  · exact ⟨h6.rest, h6.frames, h6.gsyms, h6.code, h6.swarmstack, h6.other, h6.nfuns⟩

/-- A binary instruction without defined result. -/
theorem step_bin_bad {E : Env} {F : CFuns} {vm : VM} {b : Bin} {x y : Obj} (w : At1 vm (.bin b)) (hx : Val vm 1 x) (hy : Val vm 0 y) :
    (binV E b x y = some .ub → step E F vm = .ub) ∧ (binV E b x y = some .abort → step E F vm = .abort) := by
  obtain ⟨h', sm', e, j, k, _⟩ := step_exec (E := E) (F := F) w
  rw [e]
  have px := (hx.keep k rfl).peek
  have py := (hy.keep k rfl).peek
  simp only [Nat.zero_add, Nat.cast_one, Nat.reduceAdd, Nat.cast_ofNat] at px py
  simp only [exec, binop, need]
  rw [if_neg (by show ¬ ((vm.stack.length : Int) - 2 < 0); have : 1 < vm.stack.length := px.2; omega), py.1, Res.ok_bind, px.1, Res.ok_bind]
  constructor <;> intro hv <;> rw [hv] <;> rfl

/-- The machine is in error with `e`, or with `pc` if the instruction was the last byte. -/
def Failed (vm vm' : VM) (e : Err) : Prop :=
  vm'.state = .error ∧ (vm'.error = e ∨ (vm'.error = .pc ∧ (vm.code.length : Int) ≤ vm.pc + 1))

theorem incPc_failed {v : VM} {e : Err} (hv : v.state = .error) (he : v.error = e) (h0 : 0 ≤ v.pc) :
    ∃ v', incPc v pure = .ok v' ∧ Failed v v' e ∧ v'.stack = v.stack ∧ v'.heap = v.heap ∧ Rest v v' := by
  unfold incPc assertPc
  simp only
  split
  · rename_i h
    exact ⟨_, rfl, ⟨rfl, .inr ⟨rfl, by omega⟩⟩, rfl, rfl, ⟨rfl, rfl, rfl, rfl, rfl, rfl, rfl⟩⟩
  · rename_i h
    exact ⟨_, rfl, ⟨hv, .inl he⟩, rfl, rfl, ⟨rfl, rfl, rfl, rfl, rfl, rfl, rfl⟩⟩

/-- A binary instruction on operands of the wrong type. -/
theorem step_bin_type {E : Env} {F : CFuns} {vm : VM} {b : Bin} {x y : Obj} (w : At1 vm (.bin b)) (hx : Val vm 1 x) (hy : Val vm 0 y)
    (hv : binV E b x y = none) : ∃ vm', step E F vm = .ok vm' ∧ Failed vm vm' .type ∧
      vm'.stack = (if binKeep b then vm.stack else vm.stack.drop 2) ∧ Keeps vm vm' ∧ Rest vm vm' := by
  obtain ⟨h', sm', e, j, k, _⟩ := step_exec (E := E) (F := F) w
  rw [e]
  have px := (hx.keep k rfl).peek
  have py := (hy.keep k rfl).peek
  simp only [Nat.zero_add, Nat.cast_one, Nat.reduceAdd, Nat.cast_ofNat] at px py
  simp only [exec, binop, need]
  rw [if_neg (by show ¬ ((vm.stack.length : Int) - 2 < 0); have : 1 < vm.stack.length := px.2; omega), py.1, Res.ok_bind, px.1, Res.ok_bind, hv]
  simp only [Res.ok_bind, Res.pure_eq]
  cases hb : binKeep b
  · simp only [Bool.false_eq_true, if_false]
    obtain ⟨v', h1, h2, h3, h4, h6⟩ := incPc_failed (v := setErr (popN { vm with heap := h', strings := sm' } 2) .type) rfl rfl w.pc.1
    exact ⟨v', h1, h2, h3, fun a c r hc => by rw [h4]; exact k a c r hc, ⟨h6.rest, h6.frames, h6.gsyms, h6.code, h6.swarmstack, h6.other, h6.nfuns⟩⟩
  · simp only [if_true]
    obtain ⟨v', h1, h2, h3, h4, h6⟩ := incPc_failed (v := setErr { vm with heap := h', strings := sm' } .type) rfl rfl w.pc.1
    exact ⟨v', h1, h2, h3, fun a c r hc => by rw [h4]; exact k a c r hc, ⟨h6.rest, h6.frames, h6.gsyms, h6.code, h6.swarmstack, h6.other, h6.nfuns⟩⟩

/-- A unary instruction with a result. -/
theorem step_un {E : Env} {F : CFuns} {vm : VM} {u : Un} {x v : Obj} (w : At1 vm (.un u)) (hx : Val vm 0 x)
    (hv : unV u x = some (.ok v)) : ∃ vm', step E F vm = .ok vm' ∧ Replaced vm vm' 1 (.atom v) ∧ Next vm' (vm.pc + 1) := by
  obtain ⟨h', sm', e, j, k, _⟩ := step_exec (E := E) (F := F) w
  rw [e]
  have px := (hx.keep k rfl).peek
  simp only [Nat.zero_add, Nat.cast_one] at px
  simp only [exec, unop, need]
  rw [if_neg (by show ¬ ((vm.stack.length : Int) - 1 < 0); have : 0 < vm.stack.length := px.2; omega), px.1, Res.ok_bind, hv]
  simp only [Res.ok_bind, Res.pure_eq]
  obtain ⟨v', h1, h2, h3, h4, h5, h6⟩ := incPc_next (v := push (popN { vm with heap := h', strings := sm' } 1) (.atom v)) w.ready w.pc.1
  refine ⟨v', h1, ⟨⟨_, h3, by rw [h4]; exact holds_new j.heap _⟩, fun a c r hc => ?_, ?_⟩, h2⟩
  · rw [h4]; exact holds_old j.heap (k a c r hc)
  · exact ⟨h6.rest, h6.frames, h6.gsyms, h6.code, h6.swarmstack, h6.other, h6.nfuns⟩

/-! ### Instructions with an argument, variables -/

/-- The four bytes after the instruction are inside the bytecode, followed by at least one byte, and are the number `a`. -/
def Arg (E : Env) (vm : VM) (a : Nat) : Prop := rd32 E.endian vm.code (vm.pc.toNat + 1) = .ok a ∧ vm.pc + 5 < vm.code.length

theorem incArg {E : Env} {v : VM} {k : VM → Nat → Res VM} {a : Nat} (p : PcIn v) (h : Arg E v a) :
    incPc v (fun vm => getArg E vm k) = k { v with pc := v.pc + 5 } a := by
  have h0 := p.1
  have h2 := h.2
  unfold incPc assertPc getArg
  simp only
  rw [if_neg (by omega), if_neg (by omega)]
  have e : (v.pc + 1).toNat = v.pc.toNat + 1 := by omega
  rw [e, h.1, Res.ok_bind]
  have e2 : v.pc + 1 + 4 = v.pc + 5 := by omega
  rw [e2]

theorem inc1 {v : VM} {k : VM → Res VM} (p : PcIn v) (h : v.pc + 1 < v.code.length) : incPc v k = k { v with pc := v.pc + 1 } := by
  have h0 := p.1
  unfold incPc assertPc
  simp only
  rw [if_neg (by omega)]

/-- `jumpz` (`b = false`) and `jumpnz` (`b = true`). -/
theorem step_jump {E : Env} {F : CFuns} {vm : VM} {b : Bool} {x : Obj} {t : Nat} (w : At1 vm (if b then .jumpnz else .jumpz)) (hx : Val vm 0 x)
    (ha : Arg E vm t) : ∃ vm', step E F vm = .ok vm' ∧ Keeps vm vm' ∧ Rest vm vm' ∧
      (if truth x = b then Next vm' (intOfU32 t) ∧ (vm'.state = .ready → vm'.stack = vm.stack.drop 1)
       else Next vm' (vm.pc + 5) ∧ vm'.stack = vm.stack.drop 1) := by
  obtain ⟨h', sm', e, j, k, _⟩ := step_exec (E := E) (F := F) w
  have px := (hx.keep k rfl).peek
  simp only [Nat.zero_add, Nat.cast_one] at px
  have hne : vm.stack ≠ [] := by intro h; have := px.2; simp [h] at this
  have hE : step E F vm = jumpIf { vm with heap := h', strings := sm', pc := vm.pc + 5 } b t := by
    rw [e]
    have ha' : Arg E { vm with heap := h', strings := sm' } t := ha
    cases b <;> simp only [Bool.false_eq_true, if_false, if_true, exec] <;> exact incArg w.pc ha'
  rw [hE]
  have px' : peek { vm with heap := h', strings := sm', pc := vm.pc + 5 } 1 = .ok x := px.1
  have hpop : ∀ p : Int, pop { vm with heap := h', strings := sm', pc := p } = { vm with heap := h', strings := sm', pc := p, stack := vm.stack.drop 1 } := by
    intro p
    unfold pop
    rw [if_neg (by simpa using hne)]
    rfl
  unfold jumpIf need
  rw [if_neg (by show ¬ ((vm.stack.length : Int) - 1 < 0); have : 0 < vm.stack.length := px.2; omega), px', Res.ok_bind]
  have h5 := ha.2
  have h0 := w.pc.1
  by_cases ht : truth x = b
  · simp only [if_pos ht]
    unfold assertPc
    simp only
    by_cases hr : intOfU32 t < 0 ∨ intOfU32 t ≥ vm.code.length
    · rw [if_pos hr]
      exact ⟨_, rfl, k, ⟨rfl, rfl, rfl, rfl, rfl, rfl, rfl⟩, ⟨rfl, .inr ⟨by simp [setErr]; omega, rfl, rfl⟩⟩, fun h => by cases h⟩
    · rw [if_neg hr, hpop]
      exact ⟨_, rfl, k, ⟨rfl, rfl, rfl, rfl, rfl, rfl, rfl⟩, ⟨rfl, .inl ⟨by omega, by simp; omega, w.ready⟩⟩, fun _ => rfl⟩
  · simp only [if_neg ht]
    rw [hpop]
    exact ⟨_, rfl, k, ⟨rfl, rfl, rfl, rfl, rfl, rfl, rfl⟩, ⟨rfl, .inl ⟨by omega, by simp; omega, w.ready⟩⟩, rfl⟩

/-- `gstore`. -/
theorem step_gstore {E : Env} {F : CFuns} {vm : VM} {sid : Nat} {s : Bytes} {a : Nat} (w : At1 vm .gstore) (hs : Val vm 1 (.str sid s))
    (ha : vm.stack[0]? = some a) (hp : vm.pc + 1 < vm.code.length) : ∃ h' sm',
      step E F vm = .ok { vm with heap := h', strings := sm', pc := vm.pc + 1, stack := vm.stack.drop 2, gsyms := FMap.set vm.gsyms sid a } ∧
      Keeps vm { vm with heap := h' } := by
  obtain ⟨h', sm', e, j, k, _⟩ := step_exec (E := E) (F := F) w
  refine ⟨h', sm', ?_, k⟩
  rw [e]
  have px := (hs.keep k rfl).peek
  simp only [Nat.reduceAdd, Nat.cast_ofNat] at px
  simp only [exec]
  rw [inc1 (v := { vm with heap := h', strings := sm' }) w.pc hp]
  unfold gstore need
  have p1 : peek { vm with heap := h', strings := sm', pc := vm.pc + 1 } 2 = .ok (.str sid s) := px.1
  have p2 : peekAddr { vm with heap := h', strings := sm', pc := vm.pc + 1 } 1 = .ok a := by
    unfold peekAddr
    simp [ha]
  rw [if_neg (by show ¬ ((vm.stack.length : Int) - 2 < 0); have : 1 < vm.stack.length := px.2; omega), p1, Res.ok_bind]
  simp only [p2, Res.ok_bind, Res.pure_eq]
  rfl

/-- `gload`. -/
theorem step_gload {E : Env} {F : CFuns} {vm : VM} {sid : Nat} {s : Bytes} (w : At1 vm .gload) (hs : Val vm 0 (.str sid s))
    (hp : vm.pc + 1 < vm.code.length) : ∃ vm', step E F vm = .ok vm' ∧ Keeps vm vm' ∧ Rest vm vm' ∧ vm'.pc = vm.pc + 1 ∧ vm'.state = .ready ∧
      (∀ a, FMap.get vm.gsyms sid = some a → vm'.stack = a :: vm.stack.drop 1) ∧
      (FMap.get vm.gsyms sid = none → Replaced vm vm' 1 (.atom .nil)) := by
  obtain ⟨h', sm', e, j, k, _⟩ := step_exec (E := E) (F := F) w
  rw [e]
  have px := (hs.keep k rfl).peek
  simp only [Nat.zero_add, Nat.cast_one] at px
  simp only [exec]
  rw [inc1 (v := { vm with heap := h', strings := sm' }) w.pc hp]
  unfold gload need
  have p1 : peek { vm with heap := h', strings := sm', pc := vm.pc + 1 } 1 = .ok (.str sid s) := px.1
  rw [if_neg (by show ¬ ((vm.stack.length : Int) - 1 < 0); have : 0 < vm.stack.length := px.2; omega), p1, Res.ok_bind]
  cases hg : FMap.get vm.gsyms sid with
  | some a =>
    simp only [hg, Res.pure_eq]
    exact ⟨_, rfl, k, ⟨rfl, rfl, rfl, rfl, rfl, rfl, rfl⟩, rfl, w.ready, fun b hb => by cases hb; rfl, fun h => by cases h⟩
  | none =>
    simp only [hg, Res.pure_eq]
    have k' : Keeps vm (pushNil (popN { vm with heap := h', strings := sm', pc := vm.pc + 1 } 1)) :=
      fun a c r hc => holds_old j.heap (k a c r hc)
    exact ⟨_, rfl, k', ⟨rfl, rfl, rfl, rfl, rfl, rfl, rfl⟩, rfl, w.ready, (fun b hb => by cases hb),
      fun _ => ⟨⟨_, rfl, holds_new j.heap _⟩, k', ⟨rfl, rfl, rfl, rfl, rfl, rfl, rfl⟩⟩⟩

/-- `lload`. -/
theorem step_lload {E : Env} {F : CFuns} {vm : VM} {idx : Nat} {f : Frame} {fs : List Frame} (w : At1 vm .lload) (ha : Arg E vm idx)
    (hf : vm.frames = f :: fs) : ∃ vm', step E F vm = .ok vm' ∧ Keeps vm vm' ∧ Rest vm vm' ∧ vm'.pc = vm.pc + 5 ∧
      (∀ a, f.syms[idx]? = some a → vm'.state = .ready ∧ vm'.stack = a :: vm.stack) ∧
      (f.syms[idx]? = none → vm'.state = .error ∧ vm'.error = .lnum ∧ vm'.stack = vm.stack) := by
  obtain ⟨h', sm', e, j, k, _⟩ := step_exec (E := E) (F := F) w
  rw [e]
  simp only [exec]
  rw [incArg (v := { vm with heap := h', strings := sm' }) w.pc (show Arg E { vm with heap := h', strings := sm' } idx from ha)]
  unfold lload
  simp only [hf]
  by_cases hlt : idx < f.syms.length
  · rw [if_neg (by omega), List.getElem?_eq_getElem hlt]
    exact ⟨_, rfl, k, ⟨rfl, hf.symm, rfl, rfl, rfl, rfl, rfl⟩, rfl, fun a h => by cases h; exact ⟨w.ready, rfl⟩, fun h => by cases h⟩
  · rw [if_pos (by omega), List.getElem?_eq_none (by omega)]
    exact ⟨_, rfl, k, ⟨rfl, hf.symm, rfl, rfl, rfl, rfl, rfl⟩, rfl, (fun a h => by cases h), fun h => ⟨rfl, rfl, rfl⟩⟩

/-- The local symbols after a store. -/
def storeSym (l : List Nat) (idx a : Nat) : List Nat := if idx < l.length then l.set idx a else l ++ [a]

/-- `lstore`. -/
theorem step_lstore {E : Env} {F : CFuns} {vm : VM} {idx a : Nat} {f : Frame} {fs : List Frame} (w : At1 vm .lstore) (ha : Arg E vm idx)
    (hf : vm.frames = f :: fs) (hs : vm.stack[0]? = some a) (hi : idx ≤ f.syms.length) : ∃ h' sm',
      step E F vm = .ok { vm with heap := h', strings := sm', pc := vm.pc + 5, stack := vm.stack.drop 1, frames := ⟨storeSym f.syms idx a, f.swarm⟩ :: fs } ∧
      Keeps vm { vm with heap := h' } := by
  obtain ⟨h', sm', e, j, k, _⟩ := step_exec (E := E) (F := F) w
  refine ⟨h', sm', ?_, k⟩
  rw [e]
  simp only [exec]
  rw [incArg (v := { vm with heap := h', strings := sm' }) w.pc (show Arg E { vm with heap := h', strings := sm' } idx from ha)]
  unfold lstore need
  have p2 : peekAddr { vm with heap := h', strings := sm', pc := vm.pc + 5 } 1 = .ok a := by
    unfold peekAddr
    simp [hs]
  have hl : 0 < vm.stack.length := (List.getElem?_eq_some_iff.mp hs).1
  rw [if_neg (by show ¬ ((vm.stack.length : Int) - 1 < 0); omega)]
  rw [p2, Res.ok_bind]
  simp only [Res.pure_eq, hf, storeSym]
  by_cases hlt : idx < f.syms.length
  · rw [if_pos hlt, if_pos hlt]; rfl
  · rw [if_neg hlt, if_neg hlt, if_pos (by omega)]; rfl

/-! ### A loaded script -/

theorem register_inv {sm : Strman.SM Bytes} (i : Strman.Inv sm) (hl : sm.id2str.length ≤ 65533) (s : Bytes) (p : Bool) :
    ∃ sm' id, Strman.register sm s p = .ok (sm', id) ∧ Strman.Inv sm' ∧ sm'.id2str.length ≤ sm.id2str.length + 1 ∧
      Strman.get sm' id = some s ∧ id < U16 ∧ (∀ j x, Strman.get sm j = some x → Strman.get sm' j = some x) := by
  cases h : FMap.get sm.str2id s with
  | some id =>
    obtain ⟨sm', h1, h2, h3, _, _, h6⟩ := Strman.register_old i h p
    obtain ⟨p0, hp⟩ := i.there _ _ h
    refine ⟨sm', id, h1, h2, by omega, ?_, i.small id (by rw [hp]; rfl), fun j x hj => by rw [h3]; exact hj⟩
    rw [h3]; unfold Strman.get; rw [hp]; rfl
  | none =>
    obtain ⟨sm', id, h1, h2, h3, h4, _, h6⟩ := Strman.register_new i h p hl
    refine ⟨sm', id, h1, h2, by omega, ?_, h2.small id (by rw [h4]; simp), fun j x hj => ?_⟩
    · unfold Strman.get; rw [h4]; simp
    · unfold Strman.get at hj ⊢
      rw [h4]
      split
      · rename_i e; rw [e, h3] at hj; simp at hj
      · exact hj

theorem loadStrings_inv (code : Bytes) : ∀ (c i : Nat) (sm sm' : Strman.SM Bytes) (j : Nat), Strman.Inv sm → sm.id2str.length + c ≤ 65534 →
    i ≤ code.length → loadStrings code c i sm = .ok (sm', j) → Strman.Inv sm' ∧ i ≤ j ∧ j ≤ code.length
  | 0, i, sm, sm', j, h, _, hi, e => by simp only [loadStrings, Res.ok.injEq, Prod.mk.injEq] at e; rw [← e.1, ← e.2]; exact ⟨h, le_refl _, hi⟩
  | c + 1, i, sm, sm', j, h, hl, hi, e => by
    unfold loadStrings at e
    split at e
    · unfold cstrAt at e
      simp only at e
      split at e
      · rename_i hlt
        obtain ⟨sm1, id, h1, h2, h3, _⟩ := register_inv h (by omega) ((code.drop i).takeWhile (· ≠ 0)) true
        simp only [h1, Res.ok_bind] at e
        obtain ⟨r1, r2, r3⟩ := loadStrings_inv code c _ sm1 sm' j h2 (by omega) (by omega) e
        exact ⟨r1, by omega, r3⟩
      · cases e
    · simp only [Res.ok.injEq, Prod.mk.injEq] at e; rw [← e.1, ← e.2]; exact ⟨h, le_refl _, hi⟩

theorem new_inv : VInv new where
  heap := ⟨List.nodup_nil, (by intro e he; cases he), (by rintro a b ⟨m, h, _⟩; cases h), (by intro e he; cases he), (by decide)⟩
  strings := Strman.new_inv
  cells := by rintro a c ⟨m, h, _⟩; cases h
  stack := by intro a h; cases h
  rest := by intro a h; cases h
  frames := by intro a h; cases h
  gsyms := by intro a h; cases h
  other := ⟨(by intro a h; cases h), (by intro a h; cases h), (by intro a h; cases h), (by intro a h; cases h), (by intro a h; cases h)⟩
  depth := fun _ => rfl
  size := by decide
  pcr := by unfold I32; decide

/-- A machine with a freshly loaded script. -/
theorem load_inv {E : Env} {code : Bytes} {vm : VM} (hc : code.length ≤ 2147483647) (hn : ∀ n, rd16 E.endian code 0 = .ok n → n ≤ 65534)
    (h : load E code new = .ok vm) : VInv vm ∧ vm.state = .ready ∧ vm.code = code ∧ 0 ≤ vm.pc ∧ vm.pc ≤ code.length := by
  unfold load at h
  obtain ⟨n, h1, h⟩ := Res.bind_eq_ok.mp h
  obtain ⟨⟨sm, j⟩, h2, h⟩ := Res.bind_eq_ok.mp h
  simp only [Res.pure_eq, Res.ok.injEq] at h
  have hlen : 2 ≤ code.length := by
    unfold rd16 rd at h1
    rcases code with _ | ⟨a, _ | ⟨b, l⟩⟩
    · simp at h1
    · simp at h1
    · simp
  obtain ⟨r1, r2, r3⟩ := loadStrings_inv code n 2 Strman.new sm j Strman.new_inv (by have := hn n h1; show 0 + n ≤ _; omega) hlen h2
  subst h
  refine ⟨{ new_inv with strings := r1, cells := ?_, depth := fun _ => rfl, size := hc, pcr := ?_ }, rfl, rfl, by simp, by simpa using r3⟩
  · rintro a c ⟨m, h, _⟩; cases h
  · exact ⟨by simp, by simp; omega⟩

end Buzz.VM
