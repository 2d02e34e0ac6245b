import Verif.Listen

/-
The string library, src/buzz/buzzstring.c, as C functions of the machine.

Not modelled: `buzzstring_register` (names of the functions) and `tofloat` (`strtof`).
-/
namespace Buzz.VM

open Buzz.F32 Buzz.Msg Buzz.Heap Buzz.Props Buzz.HeapWire

/-- `buzzvm_pushs(vm, buzzvm_string_register(vm, s, 0))`. -/
def pushStr (vm : VM) (s : Bytes) : Res VM := do
  let r ← Strman.register vm.strings s false
  pure (pushS { vm with strings := r.1 } r.2)

/-- `buzzvm_lnum` (buzzvm.h 858): the number of arguments. -/
def lnum (vm : VM) : Res Int :=
  match vm.frames with
  | [] => .ub
  | f :: _ => .ok ((f.syms.length : Int) - 1)

/-- `buzzstring_length` (39-50).  The length is passed as a 32-bit number. -/
def strLength (vm : VM) : Res VM := do
  let n ← lnum vm
  if n ≠ 1 then pure (setErr vm .lnum)
  else do
    let vm ← lload vm 1
    let o ← peek vm 1
    match o with
    | .str _ s => ret1 (pushInt vm (intOfU32 ((cstr s).length % 4294967296)))
    | _ => pure (setErr vm .type)

/-- The end of `buzzstring_sub` (94-101): a negative start reads before the string. -/
def subTail (vm : VM) (s : Bytes) (n m : Int) : Res VM :=
  if n < 0 then .ub
  else do
    let vm ← pushStr vm ((s.drop n.toNat).take (m - n).toNat)
    ret1 vm

/-- `buzzstring_sub` (55-102). -/
def strSub (vm : VM) : Res VM := do
  let k ← lnum vm
  if k ≠ 2 ∧ k ≠ 3 then pure (setErr vm .lnum)
  else do
    let vm ← lload vm 1
    let o ← peek vm 1
    match o with
    | .str _ s =>
      let ls := intOfU32 ((cstr s).length % 4294967296)
      let vm ← lload vm 2
      let o ← peek vm 1
      match o with
      | .int n =>
        if n ≥ ls then ret1 (pushNil vm)
        else if k = 3 then do
          let vm ← lload vm 3
          let o ← peek vm 1
          match o with
          | .int m =>
            if m < n then ret1 (pushNil vm)
            else subTail vm (cstr s) n (if m ≥ ls then ls else m)
          | _ => pure (setErr vm .type)
        else subTail vm (cstr s) n ls
      | _ => pure (setErr vm .type)
    | _ => pure (setErr vm .type)

/-- The first loop of `buzzstring_concat` (118-122): load the arguments from number `i` on, `n` of them, and continue. -/
def concatLoad : Nat → Nat → VM → (VM → Res VM) → Res VM
  | 0, _, vm, k => k vm
  | n + 1, i, vm, k => do
    let vm ← lload vm i
    let o ← peek vm 1
    match o with
    | .str _ _ => concatLoad n (i + 1) vm k
    | _ => pure (setErr vm .type)

/-- The second loop (128-132): the strings at the stack positions `i`, …, 1. -/
def concatJoin (vm : VM) : Nat → Res Bytes
  | 0 => pure []
  | i + 1 => do
    let o ← peek vm ((i + 1 : Nat) : Int)
    match o with
    | .str _ s => do
      let r ← concatJoin vm i
      pure (cstr s ++ r)
    | _ => .ub

/-- `buzzstring_concat` (107-139).  The length of the buffer is a 32-bit number: a longer result is written past its end. -/
def strConcat (vm : VM) : Res VM := do
  let k ← lnum vm
  if k < 2 then pure (setErr vm .lnum)
  else concatLoad k.toNat 1 vm (fun vm => do
    let s ← concatJoin vm k.toNat
    if s.length + 1 ≥ 4294967296 then .ub
    else do
      let vm ← pushStr vm s
      ret1 vm)

/-- `buzzstring_tostring` (144-166).  For other objects than numbers the code pushes nil and then formats the bytes of the object as a
float: undefined. -/
def strToString (vm : VM) : Res VM := do
  let k ← lnum vm
  if k ≠ 1 then pure (setErr vm .lnum)
  else do
    let vm ← lload vm 1
    let o ← peek vm 1
    match o with
    | .int v => do
      let vm ← pushStr vm (Obj.fmtD v)
      ret1 vm
    | .flt f => do
      let vm ← pushStr vm (Obj.fmtF f)
      ret1 vm
    | _ => .ub

/-- White space for `strtol`. -/
def isSpace (c : UInt8) : Bool := c = 32 || (9 ≤ c && c ≤ 13)

/-- A decimal digit. -/
def isDigit (c : UInt8) : Bool := 48 ≤ c && c ≤ 57

/-- The number written by decimal digits. -/
def number (s : Bytes) : Nat := s.foldl (fun n c => 10 * n + (c.toNat - 48)) 0

/-- `strtol(s, &endptr, 10)` of the C library, before saturation: `none` when there are no digits. -/
def strtol (s : Bytes) : Option Int :=
  let s := s.dropWhile isSpace
  let neg := s.head? = some 45
  let s := if s.head? = some 45 ∨ s.head? = some 43 then s.tail else s
  let d := s.takeWhile isDigit
  if d = [] then none else some (if neg then -(number d : Int) else number d)

/-- The result of `strtol` cast to 32 bits, and whether `errno` is set; `long` has 64 bits. -/
def strtol32 (v : Int) : Int × Bool :=
  if v > 9223372036854775807 then (-1, true)
  else if v < -9223372036854775808 then (0, true)
  else (intOfU32 (v % 4294967296).toNat, false)

/-- `buzzstring_toint` (171-194). -/
def strToInt (vm : VM) : Res VM := do
  let k ← lnum vm
  if k ≠ 1 then pure (setErr vm .lnum)
  else do
    let vm ← lload vm 1
    let o ← peek vm 1
    match o with
    | .str _ s =>
      match strtol (cstr s) with
      | none => ret1 (pushNil vm)
      | some v =>
        if (strtol32 v).2 = true ∧ (strtol32 v).1 = 0 then ret1 (pushNil vm)
        else ret1 (pushInt vm (strtol32 v).1)
    | _ => pure (setErr vm .type)

/-! ### Functions that return one value -/

/-- The machine has entered a C function with these arguments; the caller's stack has the return address on top. -/
structure Entry (vm : VM) (args : List Nat) : Prop where
  inv : VInv vm
  ready : vm.state = .ready
  ex : ∃ f fs self p st r q, vm.frames = f :: fs ∧ f.syms = self :: args ∧ vm.rest = (p :: st) :: r ∧ Holds vm.heap p (.atom (.int q))

/-- The function has returned this one value to its caller and has changed nothing but strings and new objects. -/
structure Gives (vm w : VM) (c : Cell) : Prop where
  ready : w.state = .ready
  ex : ∃ f p st a q, vm.frames = f :: w.frames ∧ vm.rest = (p :: st) :: w.rest ∧ Holds vm.heap p (.atom (.int q)) ∧ w.pc = q ∧ w.stack = a :: st ∧ Holds w.heap a c
  gsyms : w.gsyms = vm.gsyms
  code : w.code = vm.code
  other : w.other = vm.other
  nfuns : w.nfuns = vm.nfuns
  heap : ∀ a c, Holds vm.heap a c → Holds w.heap a c
  strs : ∀ j s, Strman.get vm.strings j = some s → Strman.get w.strings j = some s
  inv : VInv w

/-- What may differ between the machine at entry and before `ret1`. -/
structure Work (vm u : VM) : Prop where
  rest : u.rest = vm.rest
  frames : u.frames = vm.frames
  gsyms : u.gsyms = vm.gsyms
  code : u.code = vm.code
  other : u.other = vm.other
  nfuns : u.nfuns = vm.nfuns
  state : u.state = vm.state
  heap : ∀ a c, Holds vm.heap a c → Holds u.heap a c
  strs : ∀ j s, Strman.get vm.strings j = some s → Strman.get u.strings j = some s
  inv : VInv u

theorem Work.refl {vm : VM} (i : VInv vm) : Work vm vm := ⟨rfl, rfl, rfl, rfl, rfl, rfl, rfl, fun _ _ h => h, fun _ _ h => h, i⟩

theorem Work.pushAddr {vm u : VM} (w : Work vm u) {a : Nat} (h : Live vm.heap a) : Work vm (pushAddr u a) :=
  { w with inv := w.inv.pushAddr (by obtain ⟨c, hc⟩ := h; exact ⟨c, w.heap _ _ hc⟩) }

theorem Work.push {vm u : VM} (w : Work vm u) {c : Cell} (k : CellOk u.heap u.strings c) : Work vm (push u c) ∧ At (VM.push u c) 0 c :=
  ⟨{ w with heap := fun a c h => holds_old w.inv.heap (w.heap a c h), inv := w.inv.push k }, ⟨_, rfl, holds_new w.inv.heap c⟩⟩

/-- Registering and pushing a string. -/
theorem Work.pushStr {vm u : VM} (w : Work vm u) (hz : u.strings.id2str.length ≤ 65533) (s : Bytes) :
    ∃ u' sid, VM.pushStr u s = .ok u' ∧ Work vm u' ∧ At u' 0 (.atom (.str sid s)) := by
  obtain ⟨sm', id, e1, e2, _, e4, e5, e6⟩ := register_inv w.inv.strings hz s false
  have iv := w.inv.setStrings e2 e6
  refine ⟨VM.push { u with strings := sm' } (.atom (.str id s)), id, ?_, ?_, ⟨_, rfl, holds_new w.inv.heap _⟩⟩
  · unfold VM.pushStr pushS
    rw [e1]
    simp only [Res.ok_bind, Nat.mod_eq_of_lt e5, e4]
    rfl
  · exact { w with heap := fun a c h => holds_old w.inv.heap (w.heap a c h), inv := iv.push e4, strs := fun j x h => e6 j x (w.strs j x h) }

/-- `ret1` at the end of a C function, as a step. -/
theorem ret1_eq {u : VM} {f : Frame} {fs : List Frame} {p b : Nat} {q : Int} {st l : List Nat} {r : List (List Nat)} (hf : u.frames = f :: fs) (hr : u.rest = (p :: st) :: r)
    (hq : Holds u.heap p (.atom (.int q))) (hst : u.stack = b :: l) :
    ret1 u = .ok (VM.pushAddr { u with swarmstack := if f.swarm then u.swarmstack.tail else u.swarmstack, frames := fs, stack := st, rest := r, pc := q } b) := by
  unfold ret1
  rw [hf]
  simp only
  unfold need
  rw [if_neg (by rw [hst]; simp), show ∀ v : VM, v.stack = b :: l → peekAddr v 1 = .ok b from fun v hv => by unfold peekAddr; rw [hv]; rfl]
  · rw [Res.ok_bind]
    rw [hr]
    simp only [retTo]
    unfold need
    rw [if_neg (by simp)]
    have hp := (peek_top (vm := { u with swarmstack := if f.swarm then u.swarmstack.tail else u.swarmstack, frames := fs, rest := r }) hq st).1
    rw [hp, Res.ok_bind]
    rfl
  · exact hst

/-- `ret1` at the end of a C function. -/
theorem ret1_gives {vm u : VM} {args : List Nat} {c : Cell} (e : Entry vm args) (w : Work vm u) (h : At u 0 c) : ∃ x, ret1 u = .ok x ∧ Gives vm x c := by
  obtain ⟨f, fs, self, p, st, r, q, hf, hs, hr, hq⟩ := e.ex
  obtain ⟨a, h0, h1⟩ := h
  cases hst : u.stack with
  | nil => rw [hst] at h0; cases h0
  | cons b l =>
    rw [hst] at h0
    simp only [List.getElem?_cons_zero, Option.some.injEq] at h0
    subst h0
    have hu := ret1_eq (w.frames.trans hf) (w.rest.trans hr) (w.heap _ _ hq) hst
    refine ⟨_, hu, ?_⟩
    have iv := ret1_out (C := fun _ => True) w.inv (by rw [w.state, e.ready]; simp) (fun _ => trivial)
    rw [hu] at iv
    exact ⟨w.state.trans e.ready, ⟨f, p, st, b, q, hf, hr, hq, rfl, rfl, h1⟩, w.gsyms, w.code, w.other, w.nfuns, w.heap, w.strs, iv⟩

theorem Entry.lnum {vm : VM} {args : List Nat} (e : Entry vm args) : VM.lnum vm = .ok args.length := by
  obtain ⟨f, fs, self, p, st, r, q, hf, hs, hr, hq⟩ := e.ex
  unfold VM.lnum
  rw [hf]
  simp [hs]

/-- Loading an argument. -/
theorem Entry.load {vm u : VM} {args : List Nat} (e : Entry vm args) (w : Work vm u) {k a : Nat} {c : Cell} (hk : args[k]? = some a)
    (hc : Holds vm.heap a c) : lload u (k + 1) = .ok (pushAddr u a) ∧ Work vm (pushAddr u a) ∧ peek (pushAddr u a) 1 = .ok (objOf a c) := by
  obtain ⟨f, fs, self, p, st, r, q, hf, hs, hr, hq⟩ := e.ex
  refine ⟨?_, w.pushAddr ⟨c, hc⟩, (peek_top (w.heap _ _ hc) _).1⟩
  exact lload_at (w.frames.trans hf) (by rw [hs]; exact hk)

/-- Where such entries come from: the call of a C closure by the machine. -/
theorem entry_of_call {vm : VM} {n : Nat} {actrec : List Nat} {sw : Bool} (i : VInv vm) (hr : vm.state = .ready) (hc : ∀ a ∈ actrec, Live vm.heap a) (h1 : actrec.length = 1) :
    Entry (enter vm n actrec sw) (vm.stack.take n).reverse := by
  refine ⟨i.enter n sw hc, hr, ?_⟩
  obtain ⟨self, rfl⟩ := List.length_eq_one_iff.mp h1
  exact ⟨_, _, self, _, _, _, vm.pc, rfl, rfl, rfl, holds_new i.heap _⟩

end Buzz.VM
