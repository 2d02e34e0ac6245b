import Verif.DebugCall
import Verif.Props.Debug
import Verif.Props.VMCalls
import Verif.Props.VMValues
import Verif.Listen

/-
Calling closures under the debugger (C81).
-/
namespace Buzz.Props

open Buzz.Msg Buzz.VM Buzz.Debug Buzz.Heap

variable {E : Env} {F : CFuns} {d : Dbg}

/-- Steps of a ready machine that has more than `base` stacks below its own, none of which starts at a breakpoint. -/
inductive GoesIn (E : Env) (F : CFuns) (B : Int → Prop) (base : Nat) : VM → VM → Prop where
  | here (vm : VM) : GoesIn E F B base vm vm
  | step {vm u w : VM} : vm.state = .ready → base < vm.rest.length → ¬ B vm.pc → VM.step E F vm = .ok u → GoesIn E F B base u w → GoesIn E F B base vm w

theorem callLoop_goes {base : Nat} : ∀ (n : Nat) (vm w : VM), vm.state = .ready → base < vm.rest.length → callLoop E F d base n vm = .ok w →
    ∃ u, GoesIn E F (fun o => bpExists d o = true) base vm u ∧ ((bpExists d u.pc = true ∧ u.state = .ready ∧ w = { u with state := .stopped }) ∨ (w = u ∧ (u.state ≠ .ready ∨ u.rest.length ≤ base)))
  | 0, vm, w, _, _, h => by cases h
  | n + 1, vm, w, hr, hd, h => by
    unfold callLoop at h
    by_cases hb : bpExists d vm.pc = true
    · rw [if_pos hb] at h
      have hs : step E F { vm with state := .stopped } = .ok { vm with state := .stopped } := by
        unfold step
        rw [if_pos (by simp)]
      rw [hs, Res.ok_bind, if_pos (by simp)] at h
      cases h
      exact ⟨vm, .here _, .inl ⟨hb, hr, rfl⟩⟩
    · rw [if_neg hb] at h
      obtain ⟨u, hs, h⟩ := Res.bind_eq_ok.mp h
      by_cases hu : u.state = .ready
      · rw [if_neg (by simp [hu])] at h
        by_cases hl : base < u.rest.length
        · rw [if_pos hl] at h
          obtain ⟨v, k1, k2⟩ := callLoop_goes n u w hu hl h
          exact ⟨v, .step hr hd hb hs k1, k2⟩
        · rw [if_neg hl] at h
          cases h
          exact ⟨_, .step hr hd hb hs (.here _), .inr ⟨rfl, .inr (by omega)⟩⟩
      · rw [if_pos hu] at h
        cases h
        exact ⟨_, .step hr hd hb hs (.here _), .inr ⟨rfl, .inl hu⟩⟩

/-- The machine that has entered a closure of a script from C: the arguments and the closure are gone from the stack, the number of arguments and the return address are new objects. -/
def dbgEntered (vm : VM) (argc : Nat) (ref : Int) (l : List Nat) : VM :=
  let h := newobj vm.heap (.atom (.int argc))
  let k := newobj h.1 (.atom (.int vm.pc))
  { vm with state := .ready, pc := ref, heap := k.1, frames := ⟨l ++ (vm.stack.take argc).reverse, false⟩ :: vm.frames, stack := [], rest := (k.2 :: vm.stack.drop (argc + 1)) :: vm.rest }

theorem inserted {argc x ca : Nat} {c : Cell} {vm : VM} (i : VInv vm) (hc : vm.stack[argc]? = some ca) (hh : Holds vm.heap ca c) :
    ∃ u, insertBytes { vm with state := .ready } argc x = .ok u ∧ u = { vm with state := .ready, stack := vm.stack.take (argc + 1) ++ x :: vm.stack.drop (argc + 1) } ∧
      VM.At (pushInt u argc) 0 (.atom (.int argc)) ∧ VM.At (pushInt u argc) (argc + 1) c := by
  have hl : argc < vm.stack.length := (List.getElem?_eq_some_iff.mp hc).1
  refine ⟨_, ?_, rfl, ⟨_, rfl, holds_new i.heap _⟩, ⟨ca, ?_, holds_old i.heap hh⟩⟩
  · unfold insertBytes
    rw [if_neg (by show ¬ vm.stack.length < argc + 1; omega)]
  · show (vm.heap.brk :: (vm.stack.take (argc + 1) ++ x :: vm.stack.drop (argc + 1)))[argc + 1]? = some ca
    rw [List.getElem?_cons_succ, List.getElem?_append_left (by rw [List.length_take]; omega), List.getElem?_take_of_lt (by omega), hc]

theorem called {argc x ca : Nat} {ref : Int} {l : List Nat} {vm : VM} (i : VInv vm) (hn : argc < 2147483647) (hc : vm.stack[argc]? = some ca) (hh : Holds vm.heap ca (.clo true ref l)) :
    (insertBytes { vm with state := .ready } argc x >>= fun u => call F false (pushInt u (intOfU32 argc))) = .ok (dbgEntered vm argc ref l) := by
  obtain ⟨u, e1, hu, a1, a2⟩ := inserted (x := x) i hc hh
  have hl : argc < vm.stack.length := (List.getElem?_eq_some_iff.mp hc).1
  rw [e1, Res.ok_bind, intOfU32_small (by omega), call_native (F := F) (sw := false) (n := argc) (by obtain ⟨b, k1, k2⟩ := a1; exact ⟨b, _, k1, k2, rfl⟩) hn a2, hu]
  unfold enter popN dbgEntered
  simp only [pushInt, VM.push, List.drop_succ_cons, List.drop_zero]
  rw [List.take_append_of_le_length (by rw [List.length_take]; omega), List.take_take, Nat.min_eq_left (by omega)]
  have : (vm.stack.take (argc + 1) ++ x :: vm.stack.drop (argc + 1)).drop (argc + 2) = vm.stack.drop (argc + 1) := by
    rw [show vm.stack.take (argc + 1) ++ x :: vm.stack.drop (argc + 1) = (vm.stack.take (argc + 1) ++ [x]) ++ vm.stack.drop (argc + 1) by simp]
    exact List.drop_left' (by simp; omega)
  rw [this]

/-- **C81** Calling a closure of a script under the debugger: from the first instruction of the closure on, instructions are executed up to the first breakpoint, the return of the call or the end of
the run, whichever comes first; the machine is stopped just if it is at a breakpoint.  The null pointer put below the closure does not matter. -/
theorem C81_call {argc x ca n : Nat} {ref : Int} {l : List Nat} {vm w : VM} (i : VInv vm) (hs : vm.state = .ready ∨ vm.state = .stopped) (hn : argc < 2147483647) (hc : vm.stack[argc]? = some ca)
    (hh : Holds vm.heap ca (.clo true ref l)) (h : Debug.closureCall E F d n argc x vm = .ok w) :
    ∃ u, GoesIn E F (fun o => bpExists d o = true) vm.rest.length (dbgEntered vm argc ref l) u ∧
      ((bpExists d u.pc = true ∧ u.state = .ready ∧ w = { u with state := .stopped }) ∨ (w = u ∧ (u.state ≠ .ready ∨ u.rest.length ≤ vm.rest.length))) := by
  unfold Debug.closureCall at h
  rw [if_neg (by rintro ⟨a, b⟩; rcases hs with k | k <;> [exact a k; exact b k])] at h
  have := called (F := F) (x := x) i hn hc hh
  obtain ⟨u, e1, e2⟩ := Res.bind_eq_ok.mp this
  rw [e1, Res.ok_bind, e2, Res.ok_bind] at h
  exact callLoop_goes n _ w rfl (Nat.lt_succ_self _) h

/-- **C81** Without breakpoints the call under the debugger is the loop of a call without it, on the machine that has entered the closure. -/
theorem C81_plain {argc x ca n : Nat} {ref : Int} {l : List Nat} {vm : VM} (i : VInv vm) (hs : vm.state = .ready ∨ vm.state = .stopped) (hn : argc < 2147483647)
    (hc : vm.stack[argc]? = some ca) (hh : Holds vm.heap ca (.clo true ref l)) (hb : d.bps = []) :
    Debug.closureCall E F d n argc x vm = runAbove E F vm.rest.length n (dbgEntered vm argc ref l) := by
  have hl : ∀ (n : Nat) (u : VM), callLoop E F d vm.rest.length n u = runAbove E F vm.rest.length n u := by
    intro n
    induction n with
    | zero => intro u; rfl
    | succ n ih =>
      intro u
      unfold callLoop runAbove
      rw [if_neg (by simp [bpExists, hb])]
      simp only [ih]
  unfold Debug.closureCall
  rw [if_neg (by rintro ⟨a, b⟩; rcases hs with k | k <;> [exact a k; exact b k])]
  obtain ⟨u, e1, e2⟩ := Res.bind_eq_ok.mp (called (F := F) (x := x) i hn hc hh)
  rw [e1, Res.ok_bind, e2, Res.ok_bind, hl]

/-- **C81** In the other states nothing happens. -/
theorem C81_other {argc x n : Nat} {vm : VM} (h1 : vm.state ≠ .ready) (h2 : vm.state ≠ .stopped) : Debug.closureCall E F d n argc x vm = .ok vm := by
  unfold Debug.closureCall
  rw [if_pos ⟨h1, h2⟩]

/-- **A defect** (C81) Calling something that is no closure is a type error, but with a breakpoint at the place of the machine it is reported as a stop there, and the null pointer stays on the stack. -/
theorem C81_hidden {argc x ca n : Nat} {c : Cell} {vm : VM} (i : VInv vm) (hs : vm.state = .ready ∨ vm.state = .stopped) (hn : argc < 2147483647) (hc : vm.stack[argc]? = some ca)
    (hh : Holds vm.heap ca c) (hk : ∀ b r l, c ≠ .clo b r l) :
    ∃ w, Debug.closureCall E F d (n + 1) argc x vm = .ok w ∧ w.state = (if bpExists d vm.pc then .stopped else .error) ∧ w.error = .type ∧ x ∈ w.stack := by
  obtain ⟨u, e1, hu, a1, a2⟩ := inserted (x := x) i hc hh
  obtain ⟨b1, g1, _, _, _, p1⟩ := VM.At.peekCell a1
  have hl : argc < vm.stack.length := (List.getElem?_eq_some_iff.mp hc).1
  have hc2 : (popN (pushInt u argc) 1).stack[argc]? = some ca := by
    rw [hu]
    show (vm.stack.take (argc + 1) ++ x :: vm.stack.drop (argc + 1))[argc]? = some ca
    rw [List.getElem?_append_left (by rw [List.length_take]; omega), List.getElem?_take_of_lt (by omega), hc]
  have hh2 : Holds (popN (pushInt u argc) 1).heap ca c := by
    rw [hu]
    exact holds_old i.heap hh
  have hneed : ¬ ((popN (pushInt u argc) 1).stack.length : Int) - (argc + 1) < 0 := by
    rw [hu]
    show ¬ ((vm.stack.take (argc + 1) ++ x :: vm.stack.drop (argc + 1)).length : Int) - (argc + 1) < 0
    rw [List.length_append, List.length_take, List.length_cons]
    omega
  obtain ⟨b2, g2, _, _, q2, _⟩ := VM.At.peekCell (vm := popN (pushInt u argc) 1) (i := argc) ⟨ca, hc2, hh2⟩
  have hcall : call F false (pushInt u argc) = .ok (setErr (popN (pushInt u argc) 1) .type) := by
    unfold call need
    rw [if_neg (by simp [pushInt, VM.push])]
    simp only [Nat.zero_add, Nat.cast_one] at p1
    rw [p1, Res.ok_bind]
    simp only [objOf]
    rw [if_neg (by omega), if_neg hneed]
    have : ((argc : Int) + 1) = ((argc + 1 : Nat) : Int) := by omega
    rw [this, q2, Res.ok_bind]
    cases c with
    | clo b r l => exact absurd rfl (hk b r l)
    | _ => rfl
  refine ⟨{ setErr (popN (pushInt u argc) 1) .type with state := if bpExists d vm.pc then .stopped else .error }, ?_, rfl, rfl, ?_⟩
  · unfold Debug.closureCall
    rw [if_neg (by rintro ⟨a, b⟩; rcases hs with k | k <;> [exact a k; exact b k]), e1, Res.ok_bind, intOfU32_small (by omega), hcall, Res.ok_bind]
    unfold callLoop
    have hpc : (setErr (popN (pushInt u argc) 1) .type).pc = vm.pc := by rw [hu]; rfl
    by_cases hb : bpExists d vm.pc = true
    · rw [if_pos (show bpExists d (setErr (popN (pushInt u argc) 1) .type).pc = true by rw [hpc]; exact hb), if_pos hb]
      unfold step
      rw [if_pos (by simp)]
      rfl
    · rw [if_neg (show ¬ bpExists d (setErr (popN (pushInt u argc) 1) .type).pc = true by rw [hpc]; exact hb), if_neg hb]
      unfold step
      rw [if_pos (by simp [setErr])]
      rfl
  · show x ∈ (popN (pushInt u argc) 1).stack
    rw [hu]
    simp [popN, pushInt, VM.push]

/-- **C81** Calling a function of the script by its name under the debugger calls the closure the name stands for; with arguments it is undefined. -/
theorem C81_function {n x : Nat} {name : Bytes} {vm : VM} {i a : Nat} {b : Bool} {r : Int} {l : List Nat} (hs : vm.state = .ready ∨ vm.state = .stopped ∨ vm.state = .done)
    (hn : FMap.get vm.strings.str2id name = some i) (hg : FMap.get vm.gsyms i = some a) (hv : Holds vm.heap a (.clo b r l)) (v : VInv vm) :
    (∃ sm, (∀ j, Strman.get sm j = Strman.get vm.strings j) ∧ Debug.functionCall E F d n name 0 x vm =
      Debug.closureCall E F d n 0 x { vm with state := .ready, strings := sm, stack := a :: vm.stack, heap := (newobj vm.heap (.atom (.str i name))).1 }) ∧
    ∀ argc, 0 < argc → Debug.functionCall E F d n name argc x vm = .ub := by
  obtain ⟨sm, h1, h2, h3, _⟩ := Strman.register_old v.strings hn false
  obtain ⟨p, hp⟩ := v.strings.there name i hn
  have hi : i < U16 := v.strings.small i (by rw [hp]; rfl)
  have hget : Strman.get sm (i % U16) = some name := by
    rw [show i % U16 = i from Nat.mod_eq_of_lt hi, h3, Strman.get, hp]
    rfl
  have e1 : pushS { vm with strings := sm, state := .ready } i = push { vm with strings := sm, state := .ready } (.atom (.str (i % U16) name)) := by
    unfold pushS
    rw [hget]
  rw [show i % U16 = i from Nat.mod_eq_of_lt hi] at e1
  have g : gload (push { vm with strings := sm, state := .ready } (.atom (.str i name))) =
      .ok { vm with state := .ready, strings := sm, stack := a :: vm.stack, heap := (newobj vm.heap (.atom (.str i name))).1 } := by
    have hp := (peek_top (vm := push { vm with strings := sm, state := .ready } (.atom (.str i name))) (holds_new v.heap (.atom (.str i name))) vm.stack).1
    unfold gload need
    refine (if_neg (show ¬ (((vm.stack.length + 1 : Nat) : Int) - 1 < 0) by omega)).trans ?_
    refine Res.bind_eq_ok.mpr ⟨_, hp, ?_⟩
    simp only [objOf]
    show (match FMap.get vm.gsyms i with | some a => _ | none => _) = _
    rw [hg]
    rfl
  have hc : peekCell ({ vm with state := .ready, strings := sm, stack := a :: vm.stack, heap := (newobj vm.heap (.atom (.str i name))).1 } : VM) 1 = .ok (.clo b r l) :=
    (peek_top (vm := { vm with state := .ready, strings := sm, heap := (newobj vm.heap (.atom (.str i name))).1 }) (holds_old v.heap hv) vm.stack).2.1
  have hst : ¬ (vm.state ≠ .ready ∧ vm.state ≠ .stopped ∧ vm.state ≠ .done) := by
    rintro ⟨a, b, c⟩
    rcases hs with k | k | k
    · exact a k
    · exact b k
    · exact c k
  refine ⟨⟨sm, h3, ?_⟩, fun argc ha => ?_⟩ <;> unfold Debug.functionCall <;> rw [if_neg hst, h1, Res.ok_bind] <;> simp only <;> rw [e1, g, Res.ok_bind, hc, Res.ok_bind]
  · simp only [if_neg (Nat.lt_irrefl 0)]
  · simp only [if_pos ha]

/-- **C81** In the other states nothing happens. -/
theorem C81_function_other {argc x n : Nat} {name : Bytes} {vm : VM} (h1 : vm.state ≠ .ready) (h2 : vm.state ≠ .stopped) (h3 : vm.state ≠ .done) :
    Debug.functionCall E F d n name argc x vm = .ok vm := by
  unfold Debug.functionCall
  rw [if_pos ⟨h1, h2, h3⟩]

/-- A machine with a closure on the stack whose code, at 2, pushes nil and returns it. -/
def callable : VM := { VM.push (VM.push VM.new (.atom .nil)) (.clo true 2 [0]) with state := .ready, code := [0, 0, 2, 6] }

/-- The hypotheses of these theorems hold of it, with one closure and no arguments. -/
example : VInv callable ∧ callable.state = .ready ∧ callable.stack[0]? = some 1 ∧ Holds callable.heap 1 (.clo true 2 [0]) := by
  have i7 := (VM.new_inv.push (c := .atom .nil) trivial).push (c := .clo true 2 [0]) ⟨by unfold I32; decide, by
    intro a ha
    simp only [List.mem_singleton] at ha
    subst ha
    exact ⟨.atom .nil, ⟨_, rfl, rfl⟩⟩⟩
  exact ⟨{ i7 with depth := fun _ => i7.depth (by simp [VM.push, VM.new]), size := by decide }, rfl, rfl, ⟨_, rfl, rfl⟩⟩

/-- Without breakpoints it returns to the place of the call; with a breakpoint at 3 it stops there; a nil called at a breakpoint is reported as a stop. -/
example : (Debug.closureCall host noFuns Debug.new 5 0 0 callable >>= fun w => Res.ok (w.state, w.pc, w.rest.length)) = .ok (.ready, 0, 0) ∧
    (Debug.closureCall host noFuns (bpSet Debug.new 3) 5 0 0 callable >>= fun w => Res.ok (w.state, w.pc, w.rest.length)) = .ok (.stopped, 3, 1) ∧
    (Debug.closureCall host noFuns (bpSet Debug.new 0) 5 0 0 (pushNil callable) >>= fun w => Res.ok (w.state, w.error, w.pc)) = .ok (.stopped, .type, 0) := by
  decide +kernel

end Buzz.Props
