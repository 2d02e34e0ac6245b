import Verif.SwarmExec

/-
C30: executing a closure in a swarm.
-/
namespace Buzz.Props

open Buzz.F32 Buzz.Msg Buzz.Heap Buzz.VM

/-! ## C30 -/

/-- The function in which `vm` is has returned to its caller, with result `x`. -/
structure ReturnedTo (vm w : VM) (x : Nat) : Prop where
  ready : w.state = .ready
  frames : ∃ f, vm.frames = f :: w.frames
  stack : ∃ p s, vm.rest = (p :: s) :: w.rest ∧ w.stack = x :: s ∧ Holds vm.heap p (.atom (.int w.pc))
  inv : VInv w

/-- The script closure at `ref` with activation record `l` is executed from machine `v` on in place of the function in which `vm` is, and
ends in `w`; until then `ss` is the swarm stack. -/
structure Executed (E : Env) (F : CFuns) (vm w : VM) (ref : Int) (l ss : List Nat) (v : VM) : Prop where
  pc : v.pc = ref
  ready : v.state = .ready
  frames : v.frames = ⟨l, true⟩ :: vm.frames.tail
  stack : v.stack = []
  depth : v.rest.length = vm.rest.length
  run : Run E F (fun _ _ => True) (vm.rest.length - 1) v w
  swarmstack : ∀ a, Within E F (vm.rest.length - 1) v a → a.swarmstack = ss

/-- The machine on which `exec` begins to execute instructions. -/
def Starts (E : Env) (F : CFuns) (id ca : Nat) (vm v : VM) : Prop := ∃ u, idGet E vm = .ok u ∧ ExecBegins F id ca (pushAddr u ca) v

/-- **C30** `exec` called as a function with one argument and ending with the machine ready: the `id` of the swarm object is an integer,
and the robot knows the swarm.
* If the robot is no member nothing is executed; `exec` returns nil to its caller.
* If the robot is a member the argument is a closure.  A script closure is executed from its beginning until it returns; at every
  instruction in between the swarm stack has the swarm's id on top of what it was.  The closure returns to the caller of `exec`.
In both cases the swarm stack is as before.  C functions called by the closure must return to their callers, and neither the closure nor the
functions it calls contain the instruction `calls`, which the compiler never emits. -/
theorem C30_exec {E : Env} {F : CFuns} (hF : FOk F) {fuel : Nat} {swarms : Nat → Option Nat} {vm w : VM} {f : Frame} {fs : List Frame} {self ca : Nat} (i : VInv vm)
    (hr : vm.state = .ready) (hf : vm.frames = f :: fs) (hl : f.syms = [self, ca]) (hsw : f.swarm = false) (hs : vm.strings.id2str.length ≤ 65533)
    (h : swarmExec E F fuel swarms vm = .ok w) (hw : w.state = .ready) :
    ∃ t sid e n, Holds vm.heap self (.tab t) ∧ Table.get E.sc t (.str sid [105, 100]) = .ok (some e) ∧ Holds vm.heap e.2 (.atom (.int n)) ∧
      ((swarms (n % 65536).toNat = some 0 ∧ w.swarmstack = vm.swarmstack ∧ ∃ x, ReturnedTo vm w x ∧ Holds w.heap x (.atom .nil)) ∨
       (∃ k native ref l, swarms (n % 65536).toNat = some (k + 1) ∧ Holds vm.heap ca (.clo native ref l) ∧
        (native = true → (∀ v, Starts E F (n % 65536).toNat ca vm v → ∀ a b, Reached E F v a → step E F a = .ok b → b.state = .ready → CReturns a b ∧ ¬ Fetched a .calls) →
          w.swarmstack = vm.swarmstack ∧ (∃ x, ReturnedTo vm w x) ∧ ∃ v, Executed E F vm w ref l ((n % 65536).toNat :: vm.swarmstack) v))) := by
  unfold swarmExec at h
  rw [hf] at h
  simp only at h
  rw [hl] at h
  simp only [List.length_cons, List.length_nil, ne_eq, not_true_eq_false, if_false, Nat.zero_add, Nat.reduceAdd] at h
  obtain ⟨u, h1, h⟩ := Res.bind_eq_ok.mp h
  unfold ifReady at h
  split at h
  case isFalse => simp only [Res.pure_eq, Res.ok.injEq] at h; subst h; contradiction
  rename_i hu
  obtain ⟨iu, ⟨sm, hp, x, hux⟩, hk, t, sid, r, ht, hg, hx⟩ := idGet_ok i hr hf hl hs h1 hu
  have hfu : u.frames = f :: fs := by rw [hux]; exact hf
  have hru : u.rest = vm.rest := by rw [hux]
  have hssu : u.swarmstack = vm.swarmstack := by rw [hux]
  have hxu : u.stack[0]? = some x := by rw [hux]; rfl
  obtain ⟨c, hc⟩ := iu.stack x (List.mem_of_getElem? hxu)
  obtain ⟨a, p1, p2, p3, p4, p5⟩ := (show At u 0 c from ⟨x, hxu, hc⟩).peekCell
  rw [hxu] at p1; cases p1
  simp only [Nat.zero_add, Nat.cast_one] at p5
  simp only [p5, Res.ok_bind] at h
  cases c with
  | tab _ => simp only [objOf] at h; cases h
  | clo _ _ _ => simp only [objOf] at h; cases h
  | atom o =>
  simp only [objOf] at h
  have hd := iu.depth (by rw [hu]; simp)
  rw [hfu, hru] at hd
  simp only [List.length_cons] at hd
  split at h
  case h_2 => cases h
  rename_i n
  have hx := hx x hxu
  cases r with
  | none =>
    simp only at hx
    obtain ⟨m1, e1, e2⟩ := hx
    obtain ⟨m2, e3, e4⟩ := hc
    rw [e1] at e3; cases e3
    rw [e2] at e4; cases e4
  | some e =>
  simp only at hx
  subst hx
  have hint : Holds vm.heap e.2 (.atom (.int n)) := holds_back hk (table_get_live i ht hg) hc
  refine ⟨t, sid, e, n, ht, hg, hint, ?_⟩
  split at h
  · simp only [Res.pure_eq, Res.ok.injEq] at h; subst h; cases hw
  rename_i k hsk
  split at h
  · rename_i hk0
    subst hk0
    left
    have hb := ret0_back iu
    rw [h] at hb
    have ju := ret0_out (C := fun _ => True) iu (by rw [hu]; simp) (fun _ => trivial)
    rw [h] at ju
    obtain ⟨⟨f', p, s, y, b1, b2, b3, b4, b5⟩, _⟩ := hb hw
    obtain ⟨z, s', z1, z2⟩ := ret0_nil iu h hw
    rw [b3] at z1; cases z1
    rw [hfu] at b1
    simp only [List.cons.injEq] at b1
    refine ⟨hsk, ?_, y, ⟨hw, ⟨f, by rw [hf, b1.2]⟩, ⟨p, s, by rw [← hru]; exact b2, b3, ?_⟩, ju⟩, z2⟩
    · rw [b5, ← b1.1, hsw, hssu]; rfl
    · exact holds_back hk (i.rest (p :: s) (by rw [← hru, b2]; simp) p (by simp)) b4
  · rename_i hk0
    right
    obtain ⟨v, h2, h⟩ := Res.bind_eq_ok.mp h
    have hv : v = pushAddr u ca := by
      unfold lload at h2
      rw [hfu] at h2
      simp only [hl] at h2
      rw [if_neg (by simp only [List.length_cons, List.length_nil]; omega)] at h2
      simpa using h2.symm
    subst hv
    have hlca : Live vm.heap ca := i.frames f (by rw [hf]; simp) ca (by rw [hl]; simp)
    obtain ⟨cc, hcc⟩ := hlca
    have hccu := hk _ _ hcc
    obtain ⟨a', q1, q2, q3, q4, q5⟩ := (show At (pushAddr u ca) 0 cc from ⟨ca, rfl, hccu⟩).peekCell
    simp only [pushAddr, List.getElem?_cons_zero, Option.some.injEq] at q1
    subst q1
    simp only [Nat.zero_add, Nat.cast_one] at q3 q4
    rw [q4, Res.ok_bind] at h
    cases cc with
    | atom _ => simp only [Res.pure_eq, Res.ok.injEq] at h; subst h; cases hw
    | tab _ => simp only [Res.pure_eq, Res.ok.injEq] at h; subst h; cases hw
    | clo native ref l =>
    simp only [q3, Res.ok_bind] at h
    refine ⟨k - 1, native, ref, l, by rw [hsk]; congr 1; omega, hcc, ?_⟩
    rintro rfl hC
    cases hre : vm.rest with
    | nil => rw [hre] at hd; simp at hd
    | cons ps r =>
    have iv := iu.pushAddr ⟨_, hccu⟩
    cases ps with
    | nil =>
      exfalso
      unfold execIn ret0 at h
      simp only [pushAddr, hfu, hru, hre] at h
      unfold retTo need at h
      simp at h
      unfold ifReady at h
      simp [setErr] at h
      subst h; cases hw
    | cons p s =>
    obtain ⟨⟨v, v1, v2, v3, v4, v5, v6, v7, v8⟩, w1, w2, ⟨y, w3⟩, w4, w5, w6⟩ :=
      execIn_native hF iv (show (pushAddr u ca).state = .ready from hu) (show (pushAddr u ca).frames = f :: fs from hfu) hsw
        (show (pushAddr u ca).rest = (p :: s) :: r by show u.rest = _; rw [hru, hre]) hccu h hw (fun v hv => hC v ⟨u, h1, hv⟩)
    refine ⟨w5.trans hssu, ⟨y, hw, ⟨f, by rw [hf, w2]⟩, ⟨p, s, by rw [hre, w1], w3, ?_⟩, w6⟩, v, v1, v2, by rw [v3, hf]; rfl, v4, ?_, ?_, ?_⟩
    · exact holds_back hk (i.rest (p :: s) (by rw [hre]; simp) p (by simp)) w4
    · rw [v5, hre]; rfl
    · rw [hre]; exact v7
    · rw [hre]
      intro a ha
      rw [v8 a ha]
      show _ = _ :: vm.swarmstack
      rw [← hssu]; rfl

/-- The script `s = {.id = 3, .exec = <C function 0>}; s.exec(function() { return 7 })`. -/
def execScript : List UInt8 := [2, 0, 105, 100, 0, 101, 120, 101, 99, 0, 30, 3, 37, 0, 0, 0, 0, 36, 3, 0, 0, 0, 31, 3, 37, 1, 0, 0, 0, 39, 0, 0, 0, 0, 31,
  3, 37, 1, 0, 0, 0, 32, 38, 54, 0, 0, 0, 36, 1, 0, 0, 0, 33, 1, 36, 7, 0, 0, 0, 6]

/-- The result on the stack, the swarm stack and the error after running it, when `x` is stored for swarm 3. -/
def execResult (x : Nat) : Res (Option Obj × List Nat × Err) := do
  let vm ← load host execScript VM.new
  let vm ← VM.run host (fun _ v => swarmExec host noFuns 20 (fun id => if id = 3 then some x else none) v) 100 { vm with nfuns := 1, swarmstack := [9] }
  match vm.stack with
  | [] => pure (none, vm.swarmstack, vm.error)
  | _ => do
    let o ← peek vm 1
    pure (some o, vm.swarmstack, vm.error)

/-- A member executes the closure, another robot does not. -/
example : execResult 1 = .ok (some (.int 7), [9], .none) ∧ execResult 0 = .ok (some .nil, [9], .none) := by decide +kernel

end Buzz.Props
