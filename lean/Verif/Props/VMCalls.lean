import Verif.Props.VMSafety

/-
C35 (calls and returns), C36 (calling closures from C), and which instructions change variables (C39).
-/
namespace Buzz.Props

open Buzz.F32 Buzz.Msg Buzz.Heap Buzz.VM

/-! ## C35 -/

/-- The state of a machine that has just entered a script closure with activation record `l`, called by `vm` with `n` arguments:
an empty stack, the symbols of the activation record followed by the arguments, and below them the caller's stacks, with the return
address in place of count, arguments, closure and self. -/
structure Called (sw : Bool) (vm vm' : VM) (n : Nat) (l : List Nat) : Prop where
  stack : vm'.stack = []
  /-- the caller's symbols are below, the callee's begin with the activation record … -/
  frames : ∃ f, vm'.frames = f :: vm.frames ∧ f.syms.length = l.length + n ∧ f.swarm = sw ∧ (∀ j, j < l.length → f.syms[j]? = l[j]?) ∧
    /- … and go on with the arguments; the last argument is below the count on top of the stack -/
    ∀ j, j < n → f.syms[l.length + j]? = vm.stack[n - j]?
  rest : ∃ p, vm'.rest = (p :: vm.stack.drop (n + 3)) :: vm.rest ∧ Holds vm'.heap p (.atom (.int (vm.pc + 1)))
  keeps : ∀ a c, Reach vm.heap (roots vm).Mem a → Holds vm.heap a c → Holds vm'.heap a c
  code : vm'.code = vm.code
  gsyms : vm'.gsyms = vm.gsyms
  swarmstack : vm'.swarmstack = vm.swarmstack
  other : vm'.other = vm.other
  inv : VInv vm'

theorem enter_called {sw : Bool} {vm : VM} {h' : Heap} {sm' : Strman.SM Bytes} {n : Nat} {ref : Int} {l : List Nat} {pc : Int} {st : State} {er : Err}
    (i : VInv { vm with heap := h', strings := sm', pc := vm.pc + 1 }) (k : Keeps vm { vm with heap := h', strings := sm' })
    (hat : At vm (n + 1) (.clo true ref l)) (hl : ∀ b ∈ l, Live h' b) (hpc : I32 pc) (hst : st ≠ .error ∨ vm.state = .ready) (hr : vm.state = .ready) :
    Called sw vm { enter (popN { vm with heap := h', strings := sm', pc := vm.pc + 1 } 1) n l sw with pc := pc, state := st, error := er } n l := by
  have hlen : n + 1 < vm.stack.length := by obtain ⟨a, h, _⟩ := hat; exact (List.getElem?_eq_some_iff.mp h).1
  have hkn : ((vm.stack.drop 1).take n).length = n := by simp; omega
  refine ⟨rfl, ⟨_, rfl, ?_, rfl, ?_, ?_⟩, ⟨(newobj h' (.atom (.int (vm.pc + 1)))).2, ?_, ?_⟩, ?_, rfl, rfl, rfl, rfl, ?_⟩
  · simp [popN]; omega
  · intro j hj
    simp only [popN]
    rw [List.getElem?_append_left hj]
  · intro j hj
    simp only [popN]
    rw [List.getElem?_append_right (by omega), Nat.add_sub_cancel_left, List.getElem?_reverse (by omega), hkn, List.getElem?_take_of_lt (by omega),
      List.getElem?_drop]
    congr 1; omega
  · simp only [enter, popN, pushInt, push, List.drop_drop]
    rw [show 1 + (n + 2) = n + 3 by omega]
  · exact holds_new i.heap _
  · intro a c r hc
    exact holds_old i.heap (k a c r hc)
  · have j := (i.popN 1).enter n sw hl
    have j2 := j.setPc hpc
    exact { j2 with depth := fun _ => j2.depth (by show vm.state ≠ .error; rw [hr]; simp) }

/-- **C35** a call of a script closure: the callee starts at its address with the activation record and the arguments as symbols. -/
theorem C35_call {E : Env} {F : CFuns} {vm : VM} {sw : Bool} {n : Nat} {ref : Int} {l : List Nat} (w : At1 vm (if sw then .calls else .callc))
    (hp : vm.pc + 1 < vm.code.length) (hn : Val vm 0 (.int n)) (hm : n < 2147483647) (hc : At vm (n + 1) (.clo true ref l)) :
    ∃ vm', step E F vm = .ok vm' ∧ Called sw vm vm' n l ∧ Next vm' ref := by
  obtain ⟨h', sm', e, j, k, _⟩ := step_exec (E := E) (F := F) w
  rw [e]
  have px := (hn.keep k rfl).peek
  simp only [Nat.zero_add, Nat.cast_one] at px
  obtain ⟨a, g1, g2⟩ := hc.keep (vm' := { vm with heap := h', strings := sm' }) k rfl
  have i1 : VInv { vm with heap := h', strings := sm', pc := vm.pc + 1 } := j.setPc (by have := j.size; have := w.pc.1; have := w.pc.2; unfold I32; simp only at *; omega)
  have hc' : At (popN { vm with heap := h', strings := sm', pc := vm.pc + 1 } 1) n (.clo true ref l) := by
    refine ⟨a, ?_, g2⟩
    have g1 : vm.stack[n + 1]? = some a := g1
    simp only [popN, List.getElem?_drop]
    rw [Nat.add_comm 1 n]; exact g1
  obtain ⟨_, _, _, _, p4, _⟩ := hc'.peekCell
  have hlen : n + 1 < vm.stack.length := (List.getElem?_eq_some_iff.mp g1).1
  have hcell := i1.cells _ _ g2
  have key : call F sw { vm with heap := h', strings := sm', pc := vm.pc + 1 } =
      .ok { enter (popN { vm with heap := h', strings := sm', pc := vm.pc + 1 } 1) n l sw with pc := ref } := by
    unfold call need
    have p1 : peek { vm with heap := h', strings := sm', pc := vm.pc + 1 } 1 = .ok (.int n) := px.1
    rw [if_neg (by show ¬ ((vm.stack.length : Int) - 1 < 0); omega), p1, Res.ok_bind]
    simp only
    rw [if_neg (by omega), if_neg (by simp only [popN, List.length_drop]; omega)]
    have e1 : ((n : Int) + 1) = ((n + 1 : Nat) : Int) := by omega
    rw [e1, p4, Res.ok_bind]
    simp
  have hE : exec E F { vm with heap := h', strings := sm' } (if sw then .calls else .callc) =
      assertPc { enter (popN { vm with heap := h', strings := sm', pc := vm.pc + 1 } 1) n l sw with pc := ref } pure := by
    cases sw <;> simp only [Bool.false_eq_true, if_false, if_true, exec] <;> rw [inc1 (v := { vm with heap := h', strings := sm' }) w.pc hp] <;> rw [key, Res.ok_bind] <;>
      unfold ifReady <;> rw [if_pos (by exact w.ready)]
  rw [hE]
  unfold assertPc
  split
  · rename_i hb
    refine ⟨_, rfl, enter_called (st := .error) (er := .pc) i1 k hc hcell.2 hcell.1 (.inr w.ready) w.ready, rfl, .inr ⟨?_, rfl, rfl⟩⟩
    simp only [setErr, enter, popN, pushInt, push] at hb ⊢
    omega
  · rename_i hb
    refine ⟨_, rfl, enter_called (st := vm.state) (er := vm.error) i1 k hc hcell.2 hcell.1 (.inr w.ready) w.ready, rfl, .inl ?_⟩
    simp only [enter, popN, pushInt, push] at hb ⊢
    exact ⟨by omega, by omega, w.ready⟩

/-- The caller continues: its operands (count, `n` arguments, closure, self) are replaced by one result, and its symbols, the stacks
below and everything they hold directly are as before. -/
structure Continues (vm w : VM) (n : Nat) : Prop where
  ready : w.state = .ready
  pc : w.pc = vm.pc + 1
  stack : ∃ x, w.stack = x :: vm.stack.drop (n + 3)
  rest : w.rest = vm.rest
  frames : w.frames = vm.frames
  code : w.code = vm.code
  values : ∀ a, (a ∈ vm.stack.drop (n + 3) ∨ (∃ s ∈ vm.rest, a ∈ s) ∨ ∃ f ∈ vm.frames, a ∈ f.syms) → ∀ o, Holds vm.heap a (.atom o) →
    Holds w.heap a (.atom o)
  inv : VInv w

theorem Called.inside {sw : Bool} {quiet : Prop} {vm vm' : VM} {n : Nat} {l : List Nat} (c : Called sw vm vm' n l) :
    ∃ p, Inside (sw = true) quiet vm'.heap p (vm.stack.drop (n + 3)) vm.rest vm.frames (vm.pc + 1) vm.code vm.swarmstack vm' := by
  obtain ⟨f, h1, _, h2, _⟩ := c.frames
  obtain ⟨p, h3, h4⟩ := c.rest
  exact ⟨p, [], [], f, h3, h1, rfl, by rw [h2], h4, fun _ _ _ h => h, c.code, fun _ => ⟨by simp, c.swarmstack⟩⟩

theorem Called.continues {sw : Bool} {quiet : Prop} {vm vm' w : VM} {n : Nat} {l : List Nat} (c : Called sw vm vm' n l)
    (o : Outside (sw = true) quiet vm'.heap (vm.stack.drop (n + 3)) vm.rest vm.frames (vm.pc + 1) vm.code vm.swarmstack w) (i : VInv w)
    (hr : w.state = .ready) : Continues vm w n := by
  obtain ⟨o1, o2, o3, o4, o5, o6, o7⟩ := o
  refine ⟨hr, o4, o3, o1, o2, o5, fun a ha o ho => ?_, i⟩
  rcases ha with h | ⟨s, hs, h⟩ | ⟨f, hf, h⟩
  · exact o6 a (.inl ⟨_, by simp, h⟩) o (c.keeps _ _ (.root (mem_roots_stack (List.mem_of_mem_drop h))) ho)
  · exact o6 a (.inl ⟨s, by simp [hs], h⟩) o (c.keeps _ _ (.root (mem_roots_rest hs h)) ho)
  · exact o6 a (.inr ⟨f, hf, h⟩) o (c.keeps _ _ (.root (mem_roots_frames hf h)) ho)

/-- **C35** the return: when the machine is ready and the callee's stack is gone, the caller continues at the next instruction with
its operands replaced by one result.  The C functions called on the way must return to their callers. -/
theorem C35_return {E : Env} {F : CFuns} (hF : FOk F) {vm vm' w : VM} {sw : Bool} {n : Nat} {ref : Int} {l : List Nat}
    (a : At1 vm (if sw then .calls else .callc)) (hp : vm.pc + 1 < vm.code.length) (hn : Val vm 0 (.int n)) (hm : n < 2147483647)
    (hc : At vm (n + 1) (.clo true ref l)) (hs : step E F vm = .ok vm') (hr : vm'.state = .ready)
    (run : Run E F CReturns vm.rest.length vm' w) : Continues vm w n := by
  obtain ⟨v, e, c, _⟩ := C35_call (E := E) (F := F) a hp hn hm hc
  rw [hs] at e; cases e
  obtain ⟨p, hin⟩ := c.inside (quiet := False)
  obtain ⟨o, i, r⟩ := inside_run hF (fun _ _ h => ⟨h, False.elim⟩) c.inv hr hin run
  exact c.continues o i r

/-- A function with one argument called at top level: the script `pushnil; pushcn 25; pushi 5; pushi 1; callc; done` with
`lload 1; lload 1; mul; ret1; done` at 25 leaves 25 on the stack. -/
example : result [0, 0, 2, 38, 20, 0, 0, 0, 36, 5, 0, 0, 0, 36, 1, 0, 0, 0, 33, 1, 41, 1, 0, 0, 0, 41, 1, 0, 0, 0, 9, 6, 1] = .ok (some (.int 25), .none) := by
  decide +kernel

/-! ## C36 -/

theorem at_lt {vm : VM} {i : Nat} {c : Cell} (h : At vm i c) : i < vm.stack.length := by
  obtain ⟨a, h, _⟩ := h; exact (List.getElem?_eq_some_iff.mp h).1

theorem intOfU32_small {n : Nat} (h : n < 2147483648) : intOfU32 n = n := by
  unfold intOfU32; rw [if_pos h]

/-- The machine of a call from C: nil is inserted as self, the count is pushed. -/
theorem insertSelf_ok {vm v : VM} {n : Nat} {c : Cell} (i : VInv vm) (hm : n < 2147483647) (hc : At vm n c) (h : insertSelf vm n = .ok v) :
    VInv (pushInt v (intOfU32 n)) ∧ Val (pushInt v (intOfU32 n)) 0 (.int n) ∧ At (pushInt v (intOfU32 n)) (n + 1) c ∧
    (pushInt v (intOfU32 n)).stack.drop (n + 3) = vm.stack.drop (n + 1) ∧ (pushInt v (intOfU32 n)).rest = vm.rest ∧ (pushInt v (intOfU32 n)).frames = vm.frames ∧
    (pushInt v (intOfU32 n)).pc = vm.pc ∧ (pushInt v (intOfU32 n)).code = vm.code ∧ (pushInt v (intOfU32 n)).state = vm.state ∧
    (pushInt v (intOfU32 n)).swarmstack = vm.swarmstack ∧ (pushInt v (intOfU32 n)).nfuns = vm.nfuns ∧
    ((pushInt v (intOfU32 n)).stack.drop 1).take n = vm.stack.take n ∧
    ∀ a c, Holds vm.heap a c → Holds (pushInt v (intOfU32 n)).heap a c := by
  have hlt := at_lt hc
  unfold insertSelf at h
  rw [if_neg (by omega)] at h
  simp only [Res.ok.injEq] at h
  have j := i.newobj (c := .atom .nil) trivial
  have iv : VInv v := by
    subst h
    refine { j with stack := ?_ }
    intro a ha
    simp only [List.mem_append, List.mem_cons] at ha
    rcases ha with ha | ha | ha
    · exact j.stack a (List.mem_of_mem_take ha)
    · rw [ha]; exact ⟨_, holds_new i.heap _⟩
    · exact j.stack a (List.mem_of_mem_drop ha)
  have hi : I32 (intOfU32 n) := by rw [intOfU32_small (by omega)]; unfold I32; omega
  have htk : (vm.stack.take (n + 1)).length = n + 1 := by simp; omega
  refine ⟨iv.push (c := .atom (.int (intOfU32 n))) hi, ⟨_, _, rfl, holds_new iv.heap _, ?_⟩, ?_, ?_, ?_, ?_, ?_, ?_, ?_, ?_, ?_, ?_, ?_⟩
  · simp only [objOf, intOfU32_small (show n < 2147483648 by omega)]
  · obtain ⟨a, h1, h2⟩ := hc
    refine ⟨a, ?_, holds_old iv.heap (by subst h; exact holds_old i.heap h2)⟩
    subst h
    simp only [pushInt, push, List.getElem?_cons_succ]
    rw [List.getElem?_append_left (by omega), List.getElem?_take_of_lt (by omega)]
    exact h1
  · subst h
    simp only [pushInt, push, List.drop_succ_cons]
    rw [List.drop_append, htk, List.drop_eq_nil_of_le (by omega)]
    simp
  · subst h; rfl
  · subst h; rfl
  · subst h; rfl
  · subst h; rfl
  · subst h; rfl
  · subst h; rfl
  · subst h; rfl
  · subst h
    simp only [pushInt, push, List.drop_succ_cons, List.drop_zero]
    rw [List.take_append_of_le_length (by omega), List.take_take, Nat.min_eq_left (by omega)]
  · intro a c hac
    exact holds_old iv.heap (by subst h; exact holds_old i.heap hac)

theorem call_native {F : CFuns} {v : VM} {sw : Bool} {n : Nat} {ref : Int} {l : List Nat} (hn : Val v 0 (.int n)) (hm : n < 2147483647)
    (hc : At v (n + 1) (.clo true ref l)) : call F sw v = .ok { enter (popN v 1) n l sw with pc := ref } := by
  have px := hn.peek
  simp only [Nat.zero_add, Nat.cast_one] at px
  have hlen := at_lt hc
  obtain ⟨a, g1, g2⟩ := hc
  have hc' : At (popN v 1) n (.clo true ref l) := by
    refine ⟨a, ?_, g2⟩
    simp only [popN, List.getElem?_drop]
    rw [Nat.add_comm 1 n]; exact g1
  obtain ⟨_, _, _, _, p4, _⟩ := hc'.peekCell
  unfold call need
  rw [if_neg (by omega), px.1, Res.ok_bind]
  simp only
  rw [if_neg (by omega), if_neg (by simp only [popN, List.length_drop]; omega)]
  have e1 : ((n : Int) + 1) = ((n + 1 : Nat) : Int) := by omega
  rw [e1, p4, Res.ok_bind]
  simp

theorem call_cfun {F : CFuns} {v : VM} {sw : Bool} {n r : Nat} {l : List Nat} (hn : Val v 0 (.int n)) (hm : n < 2147483647)
    (hc : At v (n + 1) (.clo false r l)) (hr : r < v.nfuns) : call F sw v = F r (enter (popN v 1) n l sw) := by
  have px := hn.peek
  simp only [Nat.zero_add, Nat.cast_one] at px
  have hlen := at_lt hc
  obtain ⟨a, g1, g2⟩ := hc
  have hc' : At (popN v 1) n (.clo false r l) := by
    refine ⟨a, ?_, g2⟩
    simp only [popN, List.getElem?_drop]
    rw [Nat.add_comm 1 n]; exact g1
  obtain ⟨_, _, _, _, p4, _⟩ := hc'.peekCell
  unfold call need
  rw [if_neg (by omega), px.1, Res.ok_bind]
  simp only
  rw [if_neg (by omega), if_neg (by simp only [popN, List.length_drop]; omega)]
  have e1 : ((n : Int) + 1) = ((n + 1 : Nat) : Int) := by omega
  rw [e1, p4, Res.ok_bind]
  have hp : (popN v 1).nfuns = v.nfuns := rfl
  simp only [hp]
  rw [if_neg (by simp; omega)]
  simp

/-- The machine on which `buzzvm_closure_call` begins to execute instructions. -/
def Begins (F : CFuns) (n : Nat) (vm v : VM) : Prop := ∃ u, insertSelf vm n = .ok u ∧ call F false (pushInt u (intOfU32 n)) = .ok v

/-- What holds after a call from C of the closure and its `n` arguments on top of the stack. -/
structure Resumed (vm w : VM) (n : Nat) : Prop where
  pc : w.pc = vm.pc
  stack : ∃ x, w.stack = x :: vm.stack.drop (n + 1)
  rest : w.rest = vm.rest
  frames : w.frames = vm.frames
  code : w.code = vm.code
  values : ∀ a, (a ∈ vm.stack.drop (n + 1) ∨ (∃ s ∈ vm.rest, a ∈ s) ∨ ∃ f ∈ vm.frames, a ∈ f.syms) → ∀ o, Holds vm.heap a (.atom o) →
    Holds w.heap a (.atom o)
  inv : VInv w

/-- A script closure called from C. -/
theorem closureCall_native {E : Env} {F : CFuns} (hF : FOk F) {quiet : Prop} {vm w : VM} {m n : Nat} {ref : Int} {l : List Nat} (i : VInv vm)
    (hr : vm.state = .ready) (hm : n < 2147483647) (hc : At vm n (.clo true ref l)) (h : closureCall E F m n vm = .ok w)
    (hw : w.state = .ready)
    (hC : ∀ v, Begins F n vm v → ∀ a b, Reached E F v a → step E F a = .ok b → b.state = .ready → CReturns a b ∧ (quiet → ¬ Fetched a .calls)) :
    Resumed vm w n ∧ (quiet → w.swarmstack = vm.swarmstack) := by
  unfold closureCall at h
  obtain ⟨u, h1, h⟩ := Res.bind_eq_ok.mp h
  obtain ⟨v, h2, h⟩ := Res.bind_eq_ok.mp h
  obtain ⟨iu, hn, hat, hd, hre, hfr, hpc, hco, hst, hss, hnf, htk, hk⟩ := insertSelf_ok i hm hc h1
  have hv := call_native (F := F) (sw := false) hn hm hat
  rw [hv] at h2
  have run := runAbove_run (P := fun a b => CReturns a b ∧ (quiet → ¬ Fetched a .calls)) m (hC v ⟨u, h1, by rw [hv]; exact h2⟩) h hw
  simp only [Res.ok.injEq] at h2
  have hcell := iu.cells _ _ hat.choose_spec.2
  have iv : VInv v := by
    subst h2
    exact ((iu.popN 1).enter n false hcell.2).setPc hcell.1
  have hin : Inside False quiet v.heap (newobj (pushInt u (intOfU32 n)).heap (.atom (.int vm.pc))).2 (vm.stack.drop (n + 1)) vm.rest vm.frames vm.pc vm.code vm.swarmstack v := by
    refine ⟨[], [], ⟨l ++ (vm.stack.take n).reverse, false⟩, ?_, ?_, rfl, by simp, ?_, fun _ _ _ h => h, ?_, fun _ => ⟨by simp, ?_⟩⟩
    · subst h2
      rw [← hpc]
      show (_ :: (popN (pushInt u (intOfU32 n)) 1).stack.drop (n + 2)) :: _ = _
      have : (popN (pushInt u (intOfU32 n)) 1).stack.drop (n + 2) = vm.stack.drop (n + 1) := by
        simp only [popN, List.drop_drop]
        rw [show 1 + (n + 2) = n + 3 by omega]
        exact hd
      rw [this, List.nil_append]
      rw [← hre]; rfl
    · subst h2
      show _ :: _ = _
      rw [List.nil_append]
      rw [← hfr, ← htk]; rfl
    · subst h2
      rw [← hpc]
      exact holds_new iu.heap _
    · subst h2; exact hco
    · subst h2; exact hss
  have hsv : v.state = .ready := by subst h2; exact hst.trans hr
  obtain ⟨o, iw, _⟩ := inside_run hF (fun _ _ h => h) iv hsv hin run
  obtain ⟨o1, o2, o3, o4, o5, o6, o7⟩ := o
  refine ⟨⟨o4, o3, o1, o2, o5, fun a ha x hx => ?_, iw⟩, fun q => by simpa using o7 q⟩
  have hx' : Holds v.heap a (.atom x) := by
    subst h2
    exact holds_old iu.heap (hk _ _ hx)
  rcases ha with h | ⟨s, hs, h⟩ | ⟨f, hf, h⟩
  · exact o6 a (.inl ⟨_, by simp, h⟩) x hx'
  · exact o6 a (.inl ⟨s, by simp [hs], h⟩) x hx'
  · exact o6 a (.inr ⟨f, hf, h⟩) x hx'

/-- **C36** `buzzvm_closure_call` of a script closure with `n` arguments on the stack above it: if it ends with the machine ready,
closure and arguments are replaced by exactly one result and the interrupted program is as before, ready to continue where it was.  The
C functions called on the way must return to their callers. -/
theorem C36_script_closure {E : Env} {F : CFuns} (hF : FOk F) {vm w : VM} {m n : Nat} {ref : Int} {l : List Nat} (i : VInv vm)
    (hr : vm.state = .ready) (hm : n < 2147483647) (hc : At vm n (.clo true ref l)) (h : closureCall E F m n vm = .ok w)
    (hw : w.state = .ready) (hC : ∀ v, Begins F n vm v → ∀ a b, Reached E F v a → step E F a = .ok b → b.state = .ready → CReturns a b) :
    Resumed vm w n :=
  (closureCall_native hF (quiet := False) i hr hm hc h hw (fun v hv a b h1 h2 h3 => ⟨hC v hv a b h1 h2 h3, False.elim⟩)).1

/-- **C36** defect: after a C closure that has returned properly, `buzzvm_closure_call` executes one more instruction of the
interrupted program. -/
theorem C36_c_closure {E : Env} {F : CFuns} {vm u v : VM} {m n r : Nat} {l : List Nat} (i : VInv vm) (hm : n < 2147483647)
    (hc : At vm n (.clo false r l)) (hnf : r < vm.nfuns) (hu : insertSelf vm n = .ok u)
    (hv : F r (enter (popN (pushInt u (intOfU32 n)) 1) n l false) = .ok v) (hrest : v.rest = vm.rest) :
    closureCall E F (m + 1) n vm = (do
      let w ← step E F v
      if w.state = .ready ∧ vm.rest.length < w.rest.length then runAbove E F vm.rest.length m w else pure w) := by
  obtain ⟨iu, hn, hat, _, _, _, _, _, _, _, hnf', _, _⟩ := insertSelf_ok i hm hc hu
  have hcc := call_cfun (F := F) (sw := false) hn hm hat (by rw [hnf']; exact hnf)
  unfold closureCall
  rw [hu, Res.ok_bind, hcc, hv, Res.ok_bind]
  conv_lhs => unfold runAbove
  cases step E F v with
  | ok w =>
    simp only [Res.ok_bind]
    by_cases hw : w.state = .ready
    · simp only [hw, ne_eq, not_true_eq_false, if_false, true_and]
    · simp only [hw, ne_eq, not_false_eq_true, if_true, false_and, if_false]
  | _ => rfl

/-- C functions that, when they leave the machine ready, have returned with `buzzvm_ret0` or `buzzvm_ret1` and changed nothing else
of their callers. -/
def FBack (F : CFuns) : Prop := ∀ r v w, VInv v → F r v = .ok w → w.state = .ready → Back v w

/-- The function has returned with `buzzvm_ret0` or `buzzvm_ret1`; globals, stigmergies, listeners and queues may differ. -/
structure Home (vm vm' : VM) : Prop where
  ex : ∃ f p s v, vm.frames = f :: vm'.frames ∧ vm.rest = (p :: s) :: vm'.rest ∧ vm'.stack = v :: s ∧
    Holds vm.heap p (.atom (.int vm'.pc)) ∧ vm'.swarmstack = if f.swarm then vm.swarmstack.tail else vm.swarmstack
  code : vm'.code = vm.code
  atoms : AtomsKept vm.heap vm'.heap

/-- C functions that, when they leave the machine ready, have returned. -/
def FHome (F : CFuns) : Prop := ∀ r v w, VInv v → F r v = .ok w → w.state = .ready → Home v w

theorem FBack.home {F : CFuns} (h : FBack F) : FHome F := fun r v w i e s => ⟨(h r v w i e s).ex, (h r v w i e s).code, (h r v w i e s).atoms⟩

/-- Such functions return to their callers: the hypothesis on C functions above is satisfied by every step. -/
theorem creturns_of_home {E : Env} {F : CFuns} (hB : FHome F) {v w : VM} (i : VInv v) (hr : v.state = .ready) (h : step E F v = .ok w)
    (hr' : w.state = .ready) : CReturns v w := by
  intro sw n r l hf hn hc
  obtain ⟨hp, _⟩ := step_moved i hr h hr'
  obtain ⟨h', sm', e, j, k, _⟩ := step_exec (E := E) (F := F) (vm := v) (op := if sw then .calls else .callc) ⟨i, hr, hp, hf⟩
  rw [e] at h
  by_cases hlt : v.pc + 1 < v.code.length
  swap
  · exfalso
    have h0 := hp.1
    cases sw <;> simp only [Bool.false_eq_true, if_false, if_true, exec] at h <;> unfold incPc assertPc at h <;> simp only at h <;>
      rw [if_pos (by omega)] at h <;> cases h <;> cases hr'
  obtain ⟨u, hu, hw⟩ : ∃ u, call F sw { v with heap := h', strings := sm', pc := v.pc + 1 } = .ok u ∧ ifReady u (fun u => assertPc u pure) = .ok w := by
    cases sw <;> simp only [Bool.false_eq_true, if_false, if_true, exec] at h <;> rw [inc1 (v := { v with heap := h', strings := sm' }) hp hlt] at h <;>
      exact Res.bind_eq_ok.mp h
  have huw : u = w := by
    unfold ifReady at hw
    split at hw
    · unfold assertPc at hw
      simp only at hw
      split at hw
      · cases hw; cases hr'
      · cases hw; rfl
    · cases hw; rfl
  subst huw
  have i1 : VInv { v with heap := h', strings := sm', pc := v.pc + 1 } := j.setPc (by have := j.size; have := hp.1; have := hp.2; unfold I32; simp only at *; omega)
  have hn1 : Val { v with heap := h', strings := sm', pc := v.pc + 1 } 0 (.int n) := (hn.keep (vm' := { v with heap := h', strings := sm' }) k rfl)
  have hc1 : At { v with heap := h', strings := sm', pc := v.pc + 1 } (n + 1) (.clo false r l) := (hc.keep (vm' := { v with heap := h', strings := sm' }) k rfl)
  have hcell := i1.cells _ _ hc1.choose_spec.2
  have hmx : n < 2147483647 ∧ 0 ≤ r ∧ r < v.nfuns := by
    have px := hn1.peek
    simp only [Nat.zero_add, Nat.cast_one] at px
    have hI := int_ok i1 hn1.choose_spec.choose_spec.2.1 _ hn1.choose_spec.choose_spec.2.2
    have hlen := at_lt hc1
    obtain ⟨a, g1, g2⟩ := hc1
    have hc' : At (popN { v with heap := h', strings := sm', pc := v.pc + 1 } 1) n (.clo false r l) := by
      refine ⟨a, ?_, g2⟩
      simp only [popN, List.getElem?_drop]
      rw [Nat.add_comm 1 n]; exact g1
    obtain ⟨_, _, _, _, p4, _⟩ := hc'.peekCell
    unfold call need at hu
    rw [if_neg (by simp only at hlen ⊢; omega), px.1, Res.ok_bind] at hu
    simp only at hu
    split at hu
    · cases hu
    · rename_i hne
      rw [if_neg (by simp only [popN, List.length_drop]; simp only at hlen; omega)] at hu
      have e1 : ((n : Int) + 1) = ((n + 1 : Nat) : Int) := by omega
      rw [e1, p4, Res.ok_bind] at hu
      have h2 := hI.2
      simp only [true_and, Bool.false_eq_true, if_false] at hu
      split at hu
      · cases hu; cases hr'
      · rename_i h3
        split at hu
        · cases hu
        · rename_i h4
          simp only [popN] at h3
          exact ⟨by omega, by omega, by omega⟩
  obtain ⟨hm, hr0, hr1⟩ := hmx
  obtain ⟨r, rfl⟩ : ∃ m : Nat, r = m := ⟨r.toNat, by omega⟩
  rw [call_cfun hn1 hm hc1 (by simp only; omega)] at hu
  have b := hB _ _ _ ((i1.popN 1).enter n sw hcell.2) hu hr'
  obtain ⟨f, p, s, x, b1, b2, b3, b4, b5⟩ := b.ex
  have hpv : Holds (enter (popN { v with heap := h', strings := sm', pc := v.pc + 1 } 1) n l sw).heap
      (newobj h' (.atom (.int (v.pc + 1)))).2 (.atom (.int (v.pc + 1))) := holds_new j.heap _
  have hrst : (enter (popN { v with heap := h', strings := sm', pc := v.pc + 1 } 1) n l sw).rest =
      ((newobj h' (.atom (.int (v.pc + 1)))).2 :: v.stack.drop (n + 3)) :: v.rest := by
    simp only [enter, popN, pushInt, push, List.drop_drop]
    rw [show 1 + (n + 2) = n + 3 by omega]
  rw [hrst] at b2
  simp only [List.cons.injEq] at b2
  obtain ⟨⟨rfl, rfl⟩, b2⟩ := b2
  have b1' : (⟨l ++ ((v.stack.drop 1).take n).reverse, sw⟩ : Frame) :: v.frames = f :: u.frames := b1
  simp only [List.cons.injEq] at b1'
  refine ⟨b2.symm, b1'.2.symm, ?_, ⟨x, b3⟩, b.code, ?_, ?_⟩
  · obtain ⟨m1, e1, e2⟩ := b4
    obtain ⟨m2, e3, e4⟩ := hpv
    rw [e1] at e3; cases e3
    rw [e2] at e4
    simp only [Cell.atom.injEq, Obj.int.injEq] at e4
    exact e4
  · rw [b5, ← b1'.1]; rfl
  · intro a ha o ho
    have hroot : (roots v).Mem a := by
      rcases ha with ⟨t, ht, hat⟩ | ⟨g, hg, hag⟩
      · exact mem_roots_rest ht hat
      · exact mem_roots_frames hg hag
    exact b.atoms a o (holds_old j.heap (k a _ (.root hroot) ho))

theorem creturns_of_back {E : Env} {F : CFuns} (hB : FBack F) {v w : VM} (i : VInv v) (hr : v.state = .ready) (h : step E F v = .ok w)
    (hr' : w.state = .ready) : CReturns v w := creturns_of_home hB.home i hr h hr'

/-- A C function that returns nil. -/
def retNil : CFuns := fun _ vm => ret0 vm

/-- It satisfies the assumptions on C functions. -/
theorem retNil_ok : FOk retNil ∧ FBack retNil := by
  constructor
  · intro n v w i hs h
    have := ret0_out (C := fun _ => True) i (by rw [hs]; simp) (fun _ => trivial)
    rw [show ret0 v = .ok w from h] at this
    exact this
  · intro n v w i h hr
    have := ret0_back i
    rw [show ret0 v = .ok w from h] at this
    exact this hr

/-- The program `pushi 7; done`, interrupted before its first instruction, with a C closure on the stack. -/
def interrupted : Res VM := do
  let vm ← load host [0, 0, 36, 7, 0, 0, 0, 1] VM.new
  pure (pushC { vm with nfuns := 1 } 0 false)

/-- The call from C of the closure has executed `pushi 7`: the result lies below a 7 and the program counter has moved. -/
example : (do
    let vm ← interrupted
    let w ← closureCall host retNil 5 0 vm
    let a ← peek w 1
    let b ← peek w 2
    pure (vm.pc, w.pc, w.stack.length, a, b)) = .ok (2, 7, 2, .int 7, .nil) := by decide +kernel

/-! ## C39, part two -/

/-- **C39** globals change only by `gstore` and by C functions; the symbols of all active functions change only by `lstore`, `lremove`,
calls and returns. -/
theorem C39_only {E : Env} {F : CFuns} {vm vm' : VM} (i : VInv vm) (hr : vm.state = .ready) (h : step E F vm = .ok vm') (hr' : vm'.state = .ready) :
    ∃ op, Fetched vm op ∧
      (op ∉ [Op.gstore, .callc, .calls] → vm'.gsyms = vm.gsyms) ∧
      (op ∉ [Op.lstore, .lremove, .callc, .calls, .ret0, .ret1] → vm'.frames = vm.frames) ∧
      (op ∈ [Op.lstore, .lremove] → vm'.frames.tail = vm.frames.tail) ∧
      (op ∈ [Op.ret0, .ret1] → ∃ f, vm.frames = f :: vm'.frames) ∧
      (op ∈ [Op.callc, .calls] → (∀ (n : Nat) r l, Val vm 0 (.int n) → ¬ At vm (n + 1) (.clo false r l)) →
        vm'.gsyms = vm.gsyms ∧ ∃ f, vm'.frames = f :: vm.frames) := by
  obtain ⟨_, op, h', sm', hf, m, k, hb⟩ := step_moved i hr h hr'
  refine ⟨op, hf, ?_, ?_, ?_, ?_, ?_⟩
  · intro ho
    cases m with
    | flat m _ => exact m.gsyms (fun e => ho (by simp [e]))
    | back _ m => exact m.gsyms
    | enter _ m => exact m.gsyms
    | cfun h1 => exact absurd (by simp only [List.mem_cons, List.not_mem_nil, or_false] at h1 ⊢; tauto) ho
  · intro ho
    cases m with
    | flat m _ => exact m.frames (fun e => ho (by simp only [List.mem_cons, List.not_mem_nil, or_false] at e ⊢; tauto))
    | back h1 m => exact absurd (by simp only [List.mem_cons, List.not_mem_nil, or_false] at h1 ⊢; tauto) ho
    | @enter sw h1 m => exact absurd (by cases sw <;> simp [h1]) ho
    | cfun h1 => exact absurd (by simp only [List.mem_cons, List.not_mem_nil, or_false] at h1 ⊢; tauto) ho
  · intro ho
    have hx : op ∉ [Op.callc, .calls, .ret0, .ret1] := by
      simp only [List.mem_cons, List.not_mem_nil, or_false] at ho
      rcases ho with rfl | rfl <;> simp
    cases m with
    | flat m _ => exact m.below
    | back h1 m => exact absurd (by simp only [List.mem_cons, List.not_mem_nil, or_false] at h1 ⊢; tauto) hx
    | @enter sw h1 m => exact absurd (by cases sw <;> simp [h1]) hx
    | cfun h1 => exact absurd (by simp only [List.mem_cons, List.not_mem_nil, or_false] at h1 ⊢; tauto) hx
  · intro ho
    cases m with
    | flat m h1 => exact absurd (by simp only [List.mem_cons, List.not_mem_nil, or_false] at ho ⊢; tauto) h1
    | back h1 m => obtain ⟨f, _, _, _, g, _⟩ := m.ex; exact ⟨f, g⟩
    | @enter sw h1 m => subst h1; cases sw <;> simp at ho
    | cfun h1 =>
      simp only [List.mem_cons, List.not_mem_nil, or_false] at ho h1
      rcases ho with rfl | rfl <;> simp at h1
  · intro ho hn
    cases m with
    | flat m h1 => exact absurd (by simp only [List.mem_cons, List.not_mem_nil, or_false] at ho ⊢; tauto) h1
    | back h1 m =>
      simp only [List.mem_cons, List.not_mem_nil, or_false] at ho h1
      rcases ho with rfl | rfl <;> simp at h1
    | @enter sw h1 m => obtain ⟨_, _, _, _, _, _, _, _, g, _⟩ := m.ex; exact ⟨m.gsyms, _, g⟩
    | @cfun n r l h1 hv hat =>
      refine absurd ?_ (hn n r l ?_)
      · obtain ⟨a, x1, x2⟩ := hat
        exact ⟨a, x1, hb _ _ x2⟩
      · obtain ⟨a, c, x1, x2, x3⟩ := hv
        exact ⟨a, c, x1, hb _ _ x2, x3⟩

end Buzz.Props
