import Verif.Props.VMCalls

/-
`swarm.exec` (buzzswarm.c) as a C function of the machine.
-/
namespace Buzz.VM

open Buzz.F32 Buzz.Msg Buzz.Heap Buzz.Props

/-- The characters of `id`. -/
def idName : Bytes := [105, 100]

/-- The macro `id_get` (buzzswarm.c 15-19) up to reading the integer: the symbol 0, the string, `tget`. -/
def idGet (E : Env) (vm : VM) : Res VM := do
  let vm ← lload vm 0
  let r ← Strman.register vm.strings idName true
  tget E (pushS { vm with strings := r.1 } r.2)

/-- The end of `buzzswarm_exec` (498-513) for closure `ca`: leave the call of `exec`, push the swarm id, call the closure as a swarm
call without arguments, execute until it has returned. -/
def execIn (E : Env) (F : CFuns) (fuel : Nat) (id ca : Nat) (vm : VM) : Res VM := do
  let vm ← ret0 vm
  ifReady vm fun vm => do
    let v ← call F true (pushInt (pushAddr { vm with swarmstack := id :: vm.swarmstack } ca) 0)
    runAbove E F vm.rest.length fuel v

/-- `buzzswarm_exec` (buzzswarm.c 481-518) with the macros `buzzvm_lnum_assert` (buzzvm.h 868), `id_get` (15-19) and
`buzzvm_type_assert` (buzzvm.h 755).  `swarms` is `buzzdict_get(vm->swarms, …)`, `fuel` bounds the number of steps of the loop.
Simplifications: when `tget` fails in `id_get` the code goes on with a machine in state error, here it stops in that state; an `id` that
is no integer is read through the wrong member of a union, here undefined. -/
def swarmExec (E : Env) (F : CFuns) (fuel : Nat) (swarms : Nat → Option Nat) (vm : VM) : Res VM :=
  match vm.frames with
  | [] => .ub
  | f :: _ =>
    if f.syms.length ≠ 2 then pure (setErr vm .lnum)
    else do
      let vm ← idGet E vm
      ifReady vm fun vm => do
        let o ← peek vm 1
        match o with
        | .int v =>
          match swarms (v % 65536).toNat with
          | none => pure (setErr vm .swarm)
          | some x =>
            if x = 0 then ret0 vm
            else do
              let vm ← lload vm 1
              let c ← peekCell vm 1
              match c with
              | .clo _ _ _ => do
                let ca ← peekAddr vm 1
                execIn E F fuel (v % 65536).toNat ca vm
              | _ => pure (setErr vm .type)
        | _ => .ub

/-! ### The parts -/

theorem VInv.setStrings {vm : VM} (i : VInv vm) {sm : Strman.SM Bytes} (is : Strman.Inv sm)
    (h : ∀ j x, Strman.get vm.strings j = some x → Strman.get sm j = some x) : VInv { vm with strings := sm } :=
  { i with strings := is, cells := fun a c hc => (i.cells a c hc).mono (fun _ _ h => h) (fun _ h => h) h }

theorem holds_back {h h' : Heap} (hk : ∀ a c, Holds h a c → Holds h' a c) {a : Nat} {c : Cell} (hl : Live h a) (hc : Holds h' a c) : Holds h a c := by
  obtain ⟨c', hc'⟩ := hl
  obtain ⟨m1, e1, e2⟩ := hk _ _ hc'
  obtain ⟨m2, e3, e4⟩ := hc
  rw [e1] at e3; cases e3
  rw [e2] at e4; subst e4
  exact hc'

theorem table_get_live {E : Env} {vm : VM} (i : VInv vm) {a : Nat} {t : Table.Tbl (Nat × Nat)} (ht : Holds vm.heap a (.tab t)) {k : Obj} {e : Nat × Nat}
    (h : Table.get E.sc t k = .ok (some e)) : Live vm.heap e.2 := by
  obtain ⟨hn, _, hlv⟩ := tab_ok i ht
  unfold Table.get at h
  obtain ⟨_, _, h⟩ := Res.bind_eq_ok.mp h
  obtain ⟨r, s1, s2⟩ := dict_rawget_mem Table.hashN (Table.keq E.sc) hn k
  rw [s1] at h
  obtain ⟨x, hx, hv⟩ := s2 e (Res.ok.inj h)
  rw [← hv]
  exact (hlv x hx).2

/-- `id_get` on a ready machine that stays ready: the object in symbol 0 is a table, and what it has under `id` is pushed. -/
structure GotId (E : Env) (vm u : VM) (self : Nat) : Prop where
  inv : VInv u
  same : ∃ sm h x, u = { vm with strings := sm, heap := h, stack := x :: vm.stack }
  holds : ∀ a c, Holds vm.heap a c → Holds u.heap a c
  lookup : ∃ t sid r, Holds vm.heap self (.tab t) ∧ Table.get E.sc t (.str sid idName) = .ok r ∧
    ∀ x, u.stack[0]? = some x → match r with | some e => x = e.2 | none => Holds u.heap x (.atom .nil)

theorem idGet_ok {E : Env} {vm u : VM} {f : Frame} {fs : List Frame} {self : Nat} {l : List Nat} (i : VInv vm)
    (hr : vm.state = .ready) (hf : vm.frames = f :: fs) (hl : f.syms = self :: l) (hs : vm.strings.id2str.length ≤ 65533) (h : idGet E vm = .ok u) (hu : u.state = .ready) :
    GotId E vm u self := by
  unfold idGet at h
  obtain ⟨v, h1, h⟩ := Res.bind_eq_ok.mp h
  obtain ⟨r, h2, h⟩ := Res.bind_eq_ok.mp h
  have hv : v = pushAddr vm self := by
    unfold lload at h1
    rw [hf] at h1
    simp only [hl] at h1
    rw [if_neg (by simp only [List.length_cons]; omega)] at h1
    simpa using h1.symm
  have hself : Live vm.heap self := i.frames f (by rw [hf]; simp) self (by rw [hl]; simp)
  obtain ⟨sm', id, e1, e2, _, e4, e5, e6⟩ := register_inv i.strings hs idName true
  have hr2 : r = (sm', id) := by
    rw [hv] at h2
    have : Strman.register vm.strings idName true = .ok r := h2
    rw [e1] at this; exact (Res.ok.inj this).symm
  subst hr2 hv
  have iv := (i.pushAddr hself).setStrings e2 e6
  simp only at h
  have hps : pushS { pushAddr vm self with strings := sm' } id = push { pushAddr vm self with strings := sm' } (.atom (.str id idName)) := by
    unfold pushS
    rw [Nat.mod_eq_of_lt e5, e4]
  rw [hps] at h
  obtain ⟨c, hc⟩ := hself
  have ok := tget_out (E := E) (F := fun _ _ => .ub) (iv.push (c := .atom (.str id idName)) e4)
  rw [h] at ok
  have hsd : Holds (newobj vm.heap (.atom (.str id idName))).1 self c := holds_old i.heap hc
  have hkd := holds_new i.heap (.atom (.str id idName))
  have at1 : At (push { pushAddr vm self with strings := sm' } (.atom (.str id idName))) 1 c := ⟨self, rfl, hsd⟩
  have at0 : At (push { pushAddr vm self with strings := sm' } (.atom (.str id idName))) 0 (.atom (.str id idName)) := ⟨_, rfl, hkd⟩
  obtain ⟨a1, g1, g2, g3, g4, g5⟩ := at1.peekCell
  obtain ⟨a0, k1, k2, k3, k4, k5⟩ := at0.peekCell
  unfold tget need at h
  rw [if_neg (by simp only [push, pushAddr, List.length_cons]; omega)] at h
  have e2' : (2 : Int) = ((1 + 1 : Nat) : Int) := rfl
  rw [e2', g4, Res.ok_bind] at h
  cases c with
  | atom o => simp only [Res.pure_eq, Res.ok.injEq] at h; subst h; cases hu
  | clo a b d => simp only [Res.pure_eq, Res.ok.injEq] at h; subst h; cases hu
  | tab t =>
    simp only at h
    have e1' : (1 : Int) = ((0 + 1 : Nat) : Int) := rfl
    rw [e1', k5, Res.ok_bind] at h
    simp only [objOf, isKey, if_true] at h
    obtain ⟨r, h3, h⟩ := Res.bind_eq_ok.mp h
    cases r with
    | some e =>
      simp only [Res.pure_eq, Res.ok.injEq] at h
      subst h
      refine ⟨ok.1, ⟨_, _, _, rfl⟩, fun a c h => holds_old i.heap h, t, id, some e, hc, h3, fun x hx => ?_⟩
      simp only [pushAddr, List.getElem?_cons_zero, Option.some.injEq] at hx
      exact hx.symm
    | none =>
      simp only [Res.pure_eq, Res.ok.injEq] at h
      subst h
      refine ⟨ok.1, ⟨_, _, _, rfl⟩, fun a c h => ?_, t, id, none, hc, h3, fun x hx => ?_⟩
      · exact holds_old (iv.push (c := .atom (.str id idName)) e4).heap (holds_old i.heap h)
      · simp only [pushNil, push, List.getElem?_cons_zero, Option.some.injEq] at hx
        rw [← hx]
        exact holds_new (iv.push (c := .atom (.str id idName)) e4).heap _

/-- Machines passed while more than `base` stacks lie below the current one. -/
inductive Within (E : Env) (F : CFuns) (base : Nat) (v : VM) : VM → Prop where
  | here : Within E F base v v
  | step {a b : VM} : Within E F base v a → VM.step E F a = .ok b → b.state = .ready → base < b.rest.length → Within E F base v b

theorem Within.reached {E : Env} {F : CFuns} {base : Nat} {v a : VM} (h : Within E F base v a) : Reached E F v a := by
  induction h with
  | here => exact .here
  | step _ e _ _ ih => exact .step ih e

theorem inside_within {E : Env} {F : CFuns} (hF : FOk F) {sw quiet : Prop} [Decidable sw] {hp0 : Heap} {p : Nat} {s : List Nat} {r : List (List Nat)} {fs : List Frame} {pc : Int} {code : Bytes}
    {ss : List Nat} {v a : VM} (hP : ∀ a b, Reached E F v a → step E F a = .ok b → b.state = .ready → CReturns a b ∧ (quiet → ¬ Fetched a .calls)) (i : VInv v) (hr : v.state = .ready)
    (hin : Inside sw quiet hp0 p s r fs pc code ss v) (h : Within E F r.length v a) : Inside sw quiet hp0 p s r fs pc code ss a ∧ VInv a ∧ a.state = .ready := by
  induction h with
  | here => exact ⟨hin, i, hr⟩
  | @step a b w h1 h2 h3 ih =>
    have hpc := (step_moved ih.2.1 ih.2.2 h1 h2).1
    have j := step_out (E := E) hF ih.2.1 (fun _ => hpc)
    rw [h1] at j
    obtain ⟨c1, c2⟩ := hP a b w.reached h1 h2
    rcases inside_step ih.2.1 ih.2.2 h1 h2 c1 c2 ih.1 with ⟨g, _⟩ | ⟨_, g⟩
    · exact ⟨g, j.1, h2⟩
    · omega

theorem retTo_nil {hp : Heap} {vm w : VM} (h : retTo vm pushNil = .ok w) (i : Inv hp) (hh : vm.heap = hp) :
    (w.state = .ready → ∃ x s, w.stack = x :: s ∧ Holds w.heap x (.atom .nil)) ∧ ∀ a c, Holds hp a c → Holds w.heap a c := by
  unfold retTo need at h
  split at h
  · simp only [Res.ok.injEq] at h; subst h; exact ⟨fun h => (by cases h), fun a c h => hh ▸ h⟩
  · obtain ⟨o, _, h⟩ := Res.bind_eq_ok.mp h
    split at h
    · simp only [Res.pure_eq, Res.ok.injEq] at h
      subst h
      exact ⟨fun _ => ⟨_, _, rfl, holds_new (h := vm.heap) (hh ▸ i) _⟩, fun a c h => holds_old (h := vm.heap) (hh ▸ i) (hh ▸ h)⟩
    · simp only [Res.pure_eq, Res.ok.injEq] at h; subst h; exact ⟨fun h => (by cases h), fun a c h => hh ▸ h⟩

theorem ret0_nil {vm w : VM} (i : VInv vm) (h : ret0 vm = .ok w) (hw : w.state = .ready) : ∃ x s, w.stack = x :: s ∧ Holds w.heap x (.atom .nil) := by
  unfold ret0 at h
  split at h
  · exact (retTo_nil h i.heap rfl).1 hw
  · cases h

theorem ret0_holds {vm w : VM} (i : VInv vm) (h : ret0 vm = .ok w) : ∀ a c, Holds vm.heap a c → Holds w.heap a c := by
  unfold ret0 at h
  split at h
  · exact (retTo_nil h i.heap rfl).2
  · cases h

/-- The machine on which `execIn` begins to execute instructions. -/
def ExecBegins (F : CFuns) (id ca : Nat) (vm v : VM) : Prop :=
  ∃ u, ret0 vm = .ok u ∧ call F true (pushInt (pushAddr { u with swarmstack := id :: u.swarmstack } ca) 0) = .ok v

/-- `execIn` on a script closure. -/
theorem execIn_native {E : Env} {F : CFuns} (hF : FOk F) {vm w : VM} {fuel id ca : Nat} {ref : Int} {l : List Nat} {f : Frame} {fs : List Frame} {p : Nat} {s : List Nat}
    {r : List (List Nat)} (i : VInv vm) (hr : vm.state = .ready) (hf : vm.frames = f :: fs) (hsw : f.swarm = false) (hrest : vm.rest = (p :: s) :: r)
    (hc : Holds vm.heap ca (.clo true ref l)) (h : execIn E F fuel id ca vm = .ok w) (hw : w.state = .ready)
    (hC : ∀ v, ExecBegins F id ca vm v → ∀ a b, Reached E F v a → step E F a = .ok b → b.state = .ready → CReturns a b ∧ ¬ Fetched a .calls) :
    (∃ v, v.pc = ref ∧ v.state = .ready ∧ v.frames = ⟨l, true⟩ :: fs ∧ v.stack = [] ∧ v.rest.length = r.length + 1 ∧ (∀ a c, Holds vm.heap a c → Holds v.heap a c) ∧
      Run E F (fun _ _ => True) r.length v w ∧ ∀ a, Within E F r.length v a → a.swarmstack = id :: vm.swarmstack) ∧
    w.rest = r ∧ w.frames = fs ∧ (∃ x, w.stack = x :: s) ∧ Holds vm.heap p (.atom (.int w.pc)) ∧ w.swarmstack = vm.swarmstack ∧ VInv w := by
  unfold execIn at h
  obtain ⟨u, h1, h⟩ := Res.bind_eq_ok.mp h
  have hb := ret0_back i
  rw [h1] at hb
  have ju := ret0_out (C := fun _ => True) i (by rw [hr]; simp) (fun _ => trivial)
  rw [h1] at ju
  have hk := ret0_holds i h1
  unfold ifReady at h
  split at h
  case isFalse => simp only [Res.pure_eq, Res.ok.injEq] at h; subst h; contradiction
  rename_i hu
  obtain ⟨⟨f', p', s', x, b1, b2, b3, b4, b5⟩, b6, b7, b8, b9, b10⟩ := hb hu
  rw [hf] at b1; rw [hrest] at b2
  simp only [List.cons.injEq] at b1 b2
  obtain ⟨rfl, b1⟩ := b1
  obtain ⟨⟨rfl, rfl⟩, b2⟩ := b2
  rw [hsw] at b5
  simp only [Bool.false_eq_true, if_false] at b5
  obtain ⟨v, h2, h⟩ := Res.bind_eq_ok.mp h
  have hca : Holds u.heap ca (.clo true ref l) := hk _ _ hc
  have iu : VInv u := ju
  have iu2 : VInv (pushAddr { u with swarmstack := id :: u.swarmstack } ca) :=
    VInv.pushAddr (vm := { u with swarmstack := id :: u.swarmstack }) { iu with } ⟨_, hca⟩
  have iu3 := iu2.push (c := .atom (.int 0)) (show I32 0 by unfold I32; omega)
  have hn : Val (pushInt (pushAddr { u with swarmstack := id :: u.swarmstack } ca) 0) 0 (.int (0 : Nat)) := ⟨_, _, rfl, holds_new iu2.heap _, rfl⟩
  have hat : At (pushInt (pushAddr { u with swarmstack := id :: u.swarmstack } ca) 0) (0 + 1) (.clo true ref l) := ⟨ca, rfl, holds_old iu2.heap hca⟩
  have hv := call_native (F := F) (sw := true) hn (by omega) hat
  have hC' := hC v ⟨u, h1, h2⟩
  rw [hv] at h2
  have run := runAbove_run (P := fun a b => CReturns a b ∧ ¬ Fetched a .calls) fuel hC' h hw
  have run' := runAbove_run (P := fun _ _ => True) fuel (fun _ _ _ _ _ => trivial) h hw
  simp only [Res.ok.injEq] at h2
  have hcell := iu3.cells _ _ hat.choose_spec.2
  have iv : VInv v := by
    subst h2
    exact ((iu3.popN 1).enter 0 true hcell.2).setPc hcell.1
  have hd : (popN (pushInt (pushAddr { u with swarmstack := id :: u.swarmstack } ca) 0) 1).stack.drop (0 + 2) = s := by
    show u.stack.drop 1 = s
    rw [b3]; rfl
  have hin : Inside True True v.heap (newobj (pushInt (pushAddr { u with swarmstack := id :: u.swarmstack } ca) 0).heap (.atom (.int u.pc))).2 s r fs u.pc v.code (id :: vm.swarmstack) v := by
    refine ⟨[], [], ⟨l, true⟩, ?_, ?_, rfl, by simp, ?_, fun _ _ _ h => h, rfl, fun _ => ⟨by simp, ?_⟩⟩
    · subst h2
      show (_ :: (popN (pushInt (pushAddr { u with swarmstack := id :: u.swarmstack } ca) 0) 1).stack.drop (0 + 2)) :: u.rest = _
      rw [hd, ← b2]; rfl
    · subst h2
      show ⟨l ++ _, true⟩ :: u.frames = _
      rw [← b1]
      simp
    · subst h2
      exact holds_new iu3.heap _
    · subst h2
      show id :: u.swarmstack = _
      rw [b5]
  have hsv : v.state = .ready := by subst h2; exact hu
  have hr' : u.rest.length = r.length := by rw [b2]
  rw [hr'] at run run'
  obtain ⟨o, iw, _⟩ := inside_run hF (quiet := True) (fun _ _ h => ⟨h.1, fun _ => h.2⟩) iv hsv hin run
  obtain ⟨o1, o2, o3, o4, o5, o6, o7⟩ := o
  refine ⟨⟨v, ?_, hsv, ?_, ?_, ?_, ?_, run', fun a ha => ?_⟩, o1, o2, o3, ?_, ?_, iw⟩
  · subst h2; rfl
  · subst h2
    show ⟨l ++ _, true⟩ :: u.frames = _
    rw [← b1]
    simp
  · subst h2; rfl
  · subst h2
    show u.rest.length + 1 = _
    rw [hr']
  · intro a c hac
    subst h2
    exact holds_old iu3.heap (holds_old iu2.heap (hk _ _ hac))
  · have hh := inside_within hF (quiet := True) (sw := True) (fun a b x y z => ⟨(hC' a b x y z).1, fun _ => (hC' a b x y z).2⟩) iv hsv hin ha
    obtain ⟨⟨_, _, _, _, _, _, _, _, _, _, g⟩, _⟩ := hh
    exact (g trivial).2
  · rw [o4]; exact b4
  · have := o7 trivial
    simpa using this

end Buzz.VM
