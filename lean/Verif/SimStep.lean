import Verif.Place

/-
One instruction of compiled code, on machines that are in a state of the program.
-/
namespace Buzz.Sim

open Buzz.Msg Buzz.Heap Buzz.Props Buzz.VM
open Buzz.Lang (Ast Thing Scope Shape St Host)
open Buzz.Parser (Ln)
open Buzz.Comp (CS EC Sub Loc Tabs comp bodyC)

/-- `n` steps. -/
def stepN (E : Env) (F : CFuns) : Nat → VM → Res VM
  | 0, vm => .ok vm
  | n + 1, vm => do
    let vm ← step E F vm
    stepN E F n vm

/-- A step of a machine with at least as many stacks below the current one as the surroundings say. -/
def Ctx.step (K : Ctx) (vm : VM) : Res VM := if K.floor ≤ vm.rest.length then VM.step K.E K.F vm else .ub

/-- `n` such steps. -/
def Ctx.stepN (K : Ctx) : Nat → VM → Res VM
  | 0, vm => .ok vm
  | n + 1, vm => do
    let vm ← K.step vm
    K.stepN n vm

theorem Ctx.step_ok {K : Ctx} {vm vm' : VM} (h : K.step vm = .ok vm') : VM.step K.E K.F vm = .ok vm' := by
  unfold Ctx.step at h
  split at h
  · exact h
  · cases h

theorem Ctx.stepN_ok {K : Ctx} : ∀ {k : Nat} {vm vm' : VM}, K.stepN k vm = .ok vm' → Sim.stepN K.E K.F k vm = .ok vm'
  | 0, _, _, h => h
  | k + 1, vm, vm', h => by
    rw [Ctx.stepN] at h
    obtain ⟨v, h1, h2⟩ := Res.bind_eq_ok.mp h
    rw [Sim.stepN, Ctx.step_ok h1, Res.ok_bind]
    exact Ctx.stepN_ok h2

theorem stepN_add {K : Ctx} {a b : Nat} : ∀ {vm vm1 vm2 : VM}, K.stepN a vm = .ok vm1 → K.stepN b vm1 = .ok vm2 → K.stepN (a + b) vm = .ok vm2 := by
  induction a with
  | zero =>
    intro vm vm1 vm2 h1 h2
    cases h1
    rw [Nat.zero_add]
    exact h2
  | succ a ih =>
    intro vm vm1 vm2 h1 h2
    rw [Nat.add_right_comm]
    simp only [Ctx.stepN] at h1 ⊢
    cases hs : K.step vm with
    | ok v =>
      rw [hs, Res.ok_bind] at h1
      rw [Res.ok_bind]
      exact ih h1 h2
    | ub => rw [hs] at h1; cases h1
    | abort => rw [hs] at h1; cases h1
    | hang => rw [hs] at h1; cases h1

theorem stepN_one {K : Ctx} {vm vm1 : VM} (h : K.step vm = .ok vm1) : K.stepN 1 vm = .ok vm1 := by
  simp only [Ctx.stepN, h, Res.ok_bind]

/-! ### A machine in the middle of a phrase -/

/-- The machine has come from `vm0` to `p`, is in the state `s`, and has the values `ws` on its stack above the stack of `vm0`, at the addresses
`as`. -/
structure PtR (K : Ctx) (vm0 : VM) (ρ0 : List Nat) (p : Nat) (ws : List Obj) (s : St) (vm : VM) (ρ : List Nat) (as : List Nat) : Prop where
  core : Core K ρ s vm
  sc : Sc K ρ vm s.scope
  pc : vm.pc = (p : Int)
  stack : vm.stack = as ++ vm0.stack
  reps : List.Forall₂ (fun w a => Rep ρ vm.heap w a) ws as
  rest : vm.rest = vm0.rest
  tail : vm.frames.tail = vm0.frames.tail
  depth : vm.frames.length = vm0.frames.length
  evo : Evo vm0.heap vm.heap
  pre : ρ0 <+: ρ
  floor : K.floor ≤ vm0.rest.length

/-- The same without naming the addresses. -/
def Pt (K : Ctx) (vm0 : VM) (ρ0 : List Nat) (p : Nat) (ws : List Obj) (s : St) (vm : VM) : Prop := ∃ ρ as, PtR K vm0 ρ0 p ws s vm ρ as

theorem collect_keeps {vm : VM} {h' : Heap} {sm' : Strman.SM Bytes} (i : VInv vm) (e : collect vm = .ok { vm with heap := h', strings := sm' }) :
    h'.brk = vm.heap.brk ∧ ∀ x j, FMap.get vm.strings.id2str j = some (x, true) → FMap.get sm'.id2str j = some (x, true) := by
  unfold collect at e
  by_cases hfull : vm.heap.maxObjs ≤ vm.heap.objs.length
  · obtain ⟨h1, sm1, g1, _, _, g4, _, _, _, g8⟩ := gc_spec i.heap i.strings (fun a ha => holds_isSome.mpr (i.roots a ha)) hfull
    rw [g1, Res.ok_bind] at e
    cases e
    exact ⟨g4, fun x j hx => (g8 j x true).mpr ⟨hx, .inl rfl⟩⟩
  · have hg : gc vm.heap vm.strings (roots vm) = .ok (vm.heap, vm.strings) := by
      unfold gc
      rw [if_pos (by omega)]
    rw [hg, Res.ok_bind] at e
    cases e
    exact ⟨rfl, fun _ _ h => h⟩

theorem fewer {A B : Type} [DecidableEq A] {l l' : List (A × B)} (h : FMap.Ok l') (k : ∀ a b, FMap.get l' a = some b → FMap.get l a = some b) : l'.length ≤ l.length := by
  have hs : l'.map (·.1) ⊆ l.map (·.1) := by
    intro a ha
    obtain ⟨e, he, rfl⟩ := List.mem_map.mp ha
    exact List.mem_map.mpr ⟨_, FMap.mem_of_get (k e.1 e.2 (FMap.get_of_mem h he)), rfl⟩
  have := (List.subperm_of_subset h hs).length_le
  simpa using this

/-- A collection makes no strings. -/
theorem collect_fewer {vm vm' : VM} (i : VInv vm) (e : collect vm = .ok vm') : vm'.strings.id2str.length ≤ vm.strings.id2str.length := by
  unfold collect at e
  by_cases hfull : vm.heap.maxObjs ≤ vm.heap.objs.length
  · obtain ⟨h1, sm1, g1, _, g3, _, _, _, _, g8⟩ := gc_spec i.heap i.strings (fun a ha => holds_isSome.mpr (i.roots a ha)) hfull
    rw [g1, Res.ok_bind] at e
    cases e
    exact fewer g3.ok2 fun a b hb => ((g8 a b.1 b.2).mp hb).1
  · have hg : gc vm.heap vm.strings (roots vm) = .ok (vm.heap, vm.strings) := by
      unfold gc
      rw [if_pos (by omega)]
    rw [hg, Res.ok_bind] at e
    cases e
    exact le_rfl

/-- A step is a collection, which does not leave the state, and the instruction. -/
theorem Pt.go' {K : Ctx} (g : Good K) {vm0 : VM} {ρ0 : List Nat} {p : Nat} {ws : List Obj} {s : St} {vm : VM} (h : Pt K vm0 ρ0 p ws s vm) {i : Nat} {op : Op}
    (hi : rd K.code p = .ok i) (ho : opcodes[i]? = some op) :
    ∃ vm1 ρ as, PtR K vm0 ρ0 p ws s vm1 ρ as ∧ PcIn vm1 ∧ K.step vm = exec K.E K.F vm1 op ∧ (∀ vm', exec K.E K.F vm1 op = .ok vm' → VInv vm') ∧
      vm1.strings.id2str.length ≤ vm.strings.id2str.length := by
  obtain ⟨ρ, as, h⟩ := h
  have hlt : p < K.code.length := by
    unfold rd at hi
    cases hc : K.code[p]? with
    | none => rw [hc] at hi; cases hi
    | some b => exact (List.getElem?_eq_some_iff.mp hc).1
  have hpc : PcIn vm := ⟨by rw [h.pc]; omega, by rw [h.pc, h.core.code]; omega⟩
  have hf : Fetched vm op := ⟨i, by rw [h.core.code, h.pc]; exact hi, ho⟩
  obtain ⟨h', sm', e1, j, hb, hk, hst⟩ := collect_spec h.core.inv
  obtain ⟨k1, k2⟩ := collect_keeps h.core.inv e1
  have e : K.step vm = exec K.E K.F { vm with heap := h', strings := sm' } op := by
    have hf2 : fetch { vm with heap := h', strings := sm' } = .ok i := by
      unfold fetch
      rw [if_neg (by show ¬ vm.pc < 0; have := hpc.1; omega)]
      show rd vm.code vm.pc.toNat = _
      rw [h.core.code, h.pc]
      exact hi
    rw [Ctx.step, if_pos (by rw [h.rest]; exact h.floor)]
    unfold VM.step
    rw [if_neg (by simp [h.core.ready]), e1, Res.ok_bind, hf2, Res.ok_bind, ho]
  have ex : Ext vm.heap h' := ⟨by rw [k1], fun a c _ hh => hb a c hh⟩
  refine ⟨{ vm with heap := h', strings := sm' }, ρ, as, ?_, hpc, e, ?_, collect_fewer h.core.inv e1⟩
  · exact {
      core := h.core.ext j h.core.ready rfl k2 ex rfl rfl rfl
      sc := h.sc.evo h.core.inv j ex.evo (List.prefix_refl _) rfl rfl
      pc := h.pc
      stack := h.stack
      reps := reps_evo (f := fun w => w) h.reps h.core.inv.heap ex.evo (List.prefix_refl _) fun a ha => j.stack a (by show a ∈ vm.stack; rw [h.stack]; exact List.mem_append_left _ ha)
      rest := h.rest
      tail := h.tail
      depth := h.depth
      evo := h.evo.trans ex.evo
      pre := h.pre
      floor := h.floor }
  · intro vm' he
    have := exec_out (E := K.E) g.funs j hpc h.core.ready op
    rw [he] at this
    exact this.1

theorem Pt.go {K : Ctx} (g : Good K) {vm0 : VM} {ρ0 : List Nat} {p : Nat} {ws : List Obj} {s : St} {vm : VM} (h : Pt K vm0 ρ0 p ws s vm) {i : Nat} {op : Op}
    (hi : rd K.code p = .ok i) (ho : opcodes[i]? = some op) :
    ∃ vm1 ρ as, PtR K vm0 ρ0 p ws s vm1 ρ as ∧ PcIn vm1 ∧ K.step vm = exec K.E K.F vm1 op ∧ ∀ vm', exec K.E K.F vm1 op = .ok vm' → VInv vm' := by
  obtain ⟨vm1, ρ, as, h1, h2, h3, h4, _⟩ := h.go' g hi ho
  exact ⟨vm1, ρ, as, h1, h2, h3, h4⟩

/-- Instructions that only add objects and change the stack. -/
theorem PtR.next {K : Ctx} {vm0 : VM} {ρ0 : List Nat} {p : Nat} {ws : List Obj} {s : St} {vm vm' : VM} {ρ as : List Nat} (h : PtR K vm0 ρ0 p ws s vm ρ as) (i : VInv vm')
    (e : Ext vm.heap vm'.heap) (hr : vm'.state = vm.state) (hc : (vm'.code, vm'.nfuns) = (vm.code, vm.nfuns)) (hs : vm'.strings = vm.strings) (hg : vm'.gsyms = vm.gsyms) (hre : vm'.rest = vm.rest)
    (hf : vm'.frames = vm.frames) {q : Nat} (hq : vm'.pc = (q : Int)) {ws' : List Obj} {as' : List Nat} (hst : vm'.stack = as' ++ vm0.stack)
    (hrep : (∀ w a, Rep ρ vm.heap w a → Live vm'.heap a → Rep ρ vm'.heap w a) → (∀ a ∈ as', Live vm'.heap a) → List.Forall₂ (fun w a => Rep ρ vm'.heap w a) ws' as') :
    Pt K vm0 ρ0 q ws' s vm' :=
  ⟨ρ, as', {
    core := h.core.ext i (hr.trans h.core.ready) hc (by rw [hs]; exact fun _ _ h => h) e hg rfl rfl
    sc := h.sc.evo h.core.inv i e.evo (List.prefix_refl _) hf hre
    pc := hq
    stack := hst
    reps := hrep (fun w a r l => r.evo h.core.inv.heap e.evo (List.prefix_refl _) l) (fun a ha => i.stack a (by rw [hst]; exact List.mem_append_left _ ha))
    rest := hre.trans h.rest
    tail := by rw [hf]; exact h.tail
    depth := by rw [hf]; exact h.depth
    evo := h.evo.trans e.evo
    pre := h.pre
    floor := h.floor }⟩

theorem reps_live {ρ : List Nat} {h h' : Heap} {ws : List Obj} {as : List Nat} (r : List.Forall₂ (fun w a => Rep ρ h w a) ws as)
    (k : ∀ w a, Rep ρ h w a → Live h' a → Rep ρ h' w a) (l : ∀ a ∈ as, Live h' a) : List.Forall₂ (fun w a => Rep ρ h' w a) ws as := by
  induction r with
  | nil => exact .nil
  | cons r _ ih => exact .cons (k _ _ r (l _ (List.mem_cons_self ..))) (ih fun a ha => l a (List.mem_cons_of_mem _ ha))

/-! ### Outcomes -/

/-- The table of strings may be filled, and the machine comes from `vm` to where it nearly is. -/
def Full (K : Ctx) (vm : VM) : Prop := K.loose = true ∧ ∃ k vm', K.stepN k vm = .ok vm' ∧ 65533 < vm'.strings.id2str.length

/-- The machine gets from `vm` to where the evaluation `x` in `s` ends: with values, to a state with `Q`; with a `return`, to one with `R`; with an
error, to that error; if it takes more than `n` rounds or calls, it makes at least `n` steps.  Otherwise functions of the host fill the table of
strings. -/
def Sim (K : Ctx) (n : Nat) (R : Obj → St → VM → Prop) {α : Type} (x : Lang.Ev α) (s : St) (vm : VM) (Q : α → St → VM → Prop) : Prop :=
  Full K vm ∨ match x s with
  | .ok a s' => ∃ k vm', K.stepN k vm = .ok vm' ∧ Q a s' vm'
  | .ret v s' => ∃ k vm', K.stepN k vm = .ok vm' ∧ R v s' vm'
  | .err e => ∃ k vm', K.stepN k vm = .ok vm' ∧ vm'.state = .error ∧ vm'.error = e
  | .odd => True
  | .time => ∃ k vm', n ≤ k ∧ K.stepN k vm = .ok vm' ∧ vm'.state = .ready

variable {K : Ctx} {n : Nat} {R : Obj → St → VM → Prop} {α β : Type}

theorem Full.after {vm vm1 : VM} {k : Nat} (h : K.stepN k vm = .ok vm1) (f : Full K vm1) : Full K vm := by
  obtain ⟨h0, k', vm', h1, h2⟩ := f
  exact ⟨h0, k + k', vm', stepN_add h h1, h2⟩

theorem Sim.full {x : Lang.Ev α} {s : St} {vm : VM} {Q : α → St → VM → Prop} (f : Full K vm) : Sim K n R x s vm Q := .inl f

theorem Sim.of_ok {x : Lang.Ev α} {s s' : St} {a : α} {vm : VM} {Q : α → St → VM → Prop} (e : x s = .ok a s') (h : ∃ k vm', K.stepN k vm = .ok vm' ∧ Q a s' vm') :
    Sim K n R x s vm Q := by
  refine .inr ?_
  rw [e]
  exact h

theorem Sim.of_odd {x : Lang.Ev α} {s : St} {vm : VM} {Q : α → St → VM → Prop} (e : x s = .odd) : Sim K n R x s vm Q := by
  refine .inr ?_
  rw [e]
  trivial

theorem Sim.of_err {x : Lang.Ev α} {s : St} {er : Err} {vm : VM} {Q : α → St → VM → Prop} (e : x s = .err er)
    (h : ∃ k vm', K.stepN k vm = .ok vm' ∧ vm'.state = .error ∧ vm'.error = er) : Sim K n R x s vm Q := by
  refine .inr ?_
  rw [e]
  exact h

theorem Sim.pure {a : α} {s : St} {vm : VM} {Q : α → St → VM → Prop} (q : Q a s vm) : Sim K n R (pure a : Lang.Ev α) s vm Q :=
  Sim.of_ok (s' := s) rfl ⟨0, vm, rfl, q⟩

/-- Steps before. -/
theorem Sim.after {x : Lang.Ev α} {s : St} {vm vm1 : VM} {k : Nat} {Q : α → St → VM → Prop} (h : K.stepN k vm = .ok vm1) (q : Sim K n R x s vm1 Q) : Sim K n R x s vm Q := by
  rcases q with q | q
  · exact .inl (q.after h)
  refine .inr ?_
  cases hx : x s with
  | ok a s' =>
    rw [hx] at q
    obtain ⟨k', vm', h1, h2⟩ := q
    exact ⟨k + k', vm', stepN_add h h1, h2⟩
  | ret v s' =>
    rw [hx] at q
    obtain ⟨k', vm', h1, h2⟩ := q
    exact ⟨k + k', vm', stepN_add h h1, h2⟩
  | err e =>
    rw [hx] at q
    obtain ⟨k', vm', h1, h2⟩ := q
    exact ⟨k + k', vm', stepN_add h h1, h2⟩
  | odd => trivial
  | time =>
    rw [hx] at q
    obtain ⟨k', vm', h0, h1, h2⟩ := q
    exact ⟨k + k', vm', by omega, stepN_add h h1, h2⟩

theorem Sim.step {x : Lang.Ev α} {s : St} {vm vm1 : VM} {Q : α → St → VM → Prop} (h : K.step vm = .ok vm1) (q : Sim K n R x s vm1 Q) : Sim K n R x s vm Q :=
  Sim.after (stepN_one h) q

theorem Sim.bind {x : Lang.Ev α} {f : α → Lang.Ev β} {s : St} {vm : VM} {Q : α → St → VM → Prop} {Q' : β → St → VM → Prop} (h : Sim K n R x s vm Q)
    (k : ∀ a s' vm', x s = .ok a s' → Q a s' vm' → Sim K n R (f a) s' vm' Q') : Sim K n R (x >>= f) s vm Q' := by
  rcases h with h | h
  · exact .inl h
  have e : (x >>= f) s = match x s with
    | .ok a s => f a s
    | .ret v s => .ret v s
    | .err e => .err e
    | .odd => .odd
    | .time => .time := rfl
  cases hx : x s with
  | ok a s' =>
    rw [hx] at h e
    obtain ⟨k1, vm1, h1, h2⟩ := h
    have := Sim.after h1 (k a s' vm1 hx h2)
    unfold Sim at this ⊢
    rw [e]
    exact this
  | ret v s' =>
    refine .inr ?_
    rw [hx] at h e
    rw [e]
    exact h
  | err er =>
    refine .inr ?_
    rw [hx] at h e
    rw [e]
    exact h
  | odd =>
    refine .inr ?_
    rw [hx] at e
    rw [e]
    trivial
  | time =>
    refine .inr ?_
    rw [hx] at h e
    rw [e]
    exact h

theorem Sim.mono {x : Lang.Ev α} {s : St} {vm : VM} {Q Q' : α → St → VM → Prop} (h : Sim K n R x s vm Q) (k : ∀ a s' vm', x s = .ok a s' → Q a s' vm' → Q' a s' vm') :
    Sim K n R x s vm Q' := by
  rcases h with h | h
  · exact .inl h
  refine .inr ?_
  cases hx : x s with
  | ok a s' =>
    rw [hx] at h
    obtain ⟨k1, vm1, h1, h2⟩ := h
    exact ⟨k1, vm1, h1, k a s' vm1 hx h2⟩
  | _ => rw [hx] at h; exact h

/-! ### Plain instructions -/

section
variable (g : Good K) {vm0 : VM} {ρ0 : List Nat} {p q : Nat} {w v : Obj} {ws : List Obj} {s : St} {vm : VM}
include g

/-- Pushing a new object that is not a location. -/
theorem PtR.push {c : Cell} {ρ as : List Nat} {vm' : VM} (h : PtR K vm0 ρ0 p ws s vm ρ as) (hq : q < K.code.length) (i : VInv vm') (he : vm' = push { vm with pc := (q : Int) } c)
    (hv : ∀ a, Img ρ v (objOf a c)) : Pt K vm0 ρ0 q (v :: ws) s vm' := by
  subst he
  have hn := holds_new h.core.inv.heap c
  refine h.next i (ext_new h.core.inv.heap c) rfl rfl rfl rfl rfl rfl rfl (as' := (newobj vm.heap c).2 :: as) ?_ ?_
  · show _ :: vm.stack = _
    rw [h.stack]
    rfl
  · intro k l
    exact .cons ⟨c, hn, hv _⟩ (reps_live h.reps k fun a ha => l a (List.mem_cons_of_mem _ ha))

theorem inc_op {vm : VM} (hc : vm.code = K.code) (hp : vm.pc = (p : Int)) (hq : p + 1 < K.code.length) (i : PcIn vm) {k : VM → Res VM} :
    incPc vm k = k { vm with pc := ((p + 1 : Nat) : Int) } := by
  rw [inc1 i (by rw [hp, hc]; omega)]
  rw [hp]
  rfl

theorem inc_arg {vm : VM} {a : Nat} (hc : vm.code = K.code) (hp : vm.pc = (p : Int)) (ha : ArgAt K p a) (hq : p + 5 < K.code.length) (i : PcIn vm) {k : VM → Nat → Res VM} :
    incPc vm (fun vm => getArg K.E vm k) = k { vm with pc := ((p + 5 : Nat) : Int) } a := by
  rw [incArg i (a := a) ⟨by rw [hp, hc]; exact ha.2, by rw [hp, hc]; omega⟩]
  rw [hp]
  rfl

theorem pt_nil (h : Pt K vm0 ρ0 p ws s vm) (l : LnAt K p (.op 2) q) (hq : q < K.code.length) : ∃ vm', K.step vm = .ok vm' ∧ Pt K vm0 ρ0 q (.nil :: ws) s vm' := by
  obtain ⟨l, rfl⟩ := l
  obtain ⟨vm1, ρ, as, h, hp, e, hv⟩ := h.go g l (op := .pushnil) rfl
  have e2 : exec K.E K.F vm1 .pushnil = .ok (push { vm1 with pc := ((p + 1 : Nat) : Int) } (.atom .nil)) := inc_op g h.core.code h.pc hq hp
  exact ⟨_, e.trans e2, h.push g hq (hv _ e2) rfl fun _ => rfl⟩

theorem pt_dup (h : Pt K vm0 ρ0 p (w :: ws) s vm) (l : LnAt K p (.op 3) q) (hq : q < K.code.length) :
    ∃ vm', K.step vm = .ok vm' ∧ Pt K vm0 ρ0 q (w :: w :: ws) s vm' := by
  obtain ⟨l, rfl⟩ := l
  obtain ⟨vm1, ρ, as, h, hp, e, hv⟩ := h.go g l (op := .dup) rfl
  cases hr : h.reps with
  | @cons _ a _ as' r rs =>
    have hst := h.stack
    have e2 : exec K.E K.F vm1 .dup = .ok { vm1 with pc := ((p + 1 : Nat) : Int), stack := a :: vm1.stack } := by
      refine (inc_op g h.core.code h.pc hq hp).trans ?_
      simp only [dup, hst]
      rfl
    refine ⟨_, e.trans e2, h.next (hv _ e2) (Ext.refl _) rfl rfl rfl rfl rfl rfl rfl (as' := a :: a :: as') ?_ ?_⟩
    · show a :: vm1.stack = _
      rw [hst]
      rfl
    · intro k l
      exact .cons r (.cons r rs)

theorem pt_pop (h : Pt K vm0 ρ0 p (w :: ws) s vm) (l : LnAt K p (.op 4) q) (hq : q < K.code.length) : ∃ vm', K.step vm = .ok vm' ∧ Pt K vm0 ρ0 q ws s vm' := by
  obtain ⟨l, rfl⟩ := l
  obtain ⟨vm1, ρ, as, h, hp, e, hv⟩ := h.go g l (op := .pop) rfl
  cases hr : h.reps with
  | @cons _ a _ as' r rs =>
    have hst := h.stack
    have e2 : exec K.E K.F vm1 .pop = .ok { vm1 with pc := ((p + 1 : Nat) : Int), stack := as' ++ vm0.stack } := by
      simp only [exec, pop, hst, List.cons_append, List.isEmpty_cons, Bool.false_eq_true, if_false, popN, List.drop_succ_cons, List.drop_zero, ifReady]
      rw [if_pos h.core.ready]
      exact inc_op (p := p) (vm := { vm1 with stack := as' ++ vm0.stack }) g h.core.code h.pc hq hp
    exact ⟨_, e.trans e2, h.next (hv _ e2) (Ext.refl _) rfl rfl rfl rfl rfl rfl rfl (as' := as') rfl fun k l => rs⟩

/-- Instructions with an argument that push a new object. -/
theorem pt_push {op : Op} {i a : Nat} {c : Cell} (h : Pt K vm0 ρ0 p ws s vm) (l : rd K.code p = .ok i) (ho : opcodes[i]? = some op) (ha : ArgAt K p a) (hq : p + 5 < K.code.length)
    (he : ∀ vm1 ρ as, PtR K vm0 ρ0 p ws s vm1 ρ as → PcIn vm1 → exec K.E K.F vm1 op = .ok (push { vm1 with pc := ((p + 5 : Nat) : Int) } c)) (hv : ∀ ρ a, Img ρ v (objOf a c)) :
    ∃ vm', K.step vm = .ok vm' ∧ Pt K vm0 ρ0 (p + 5) (v :: ws) s vm' := by
  obtain ⟨vm1, ρ, as, h, hp, e, hi⟩ := h.go g l ho
  have e2 := he vm1 ρ as h hp
  exact ⟨_, e.trans e2, h.push g hq (hi _ e2) rfl (hv ρ)⟩

theorem word_small {v : Int} (h0 : 0 ≤ v) (h1 : v < 4294967296) : (v % 4294967296).toNat = v.toNat := by
  rw [Int.emod_eq_of_lt h0 h1]

theorem int_word {v : Int} : intOfU32 (v % 4294967296).toNat = (v + 2147483648) % 4294967296 - 2147483648 := by
  unfold intOfU32
  split <;> omega

theorem pt_int {m : Nat} (h : Pt K vm0 ρ0 p ws s vm) (l : LnAt K p (.num 36 m) q) (hm : m < 2147483648) (hq : q < K.code.length) :
    ∃ vm', K.step vm = .ok vm' ∧ Pt K vm0 ρ0 q (.int m :: ws) s vm' := by
  obtain ⟨l, ha, rfl⟩ := l
  refine pt_push g h l (op := .pushi) rfl ha hq (c := .atom (.int m)) (fun vm1 ρ as h hp => ?_) fun _ _ => rfl
  refine (inc_arg g h.core.code h.pc ha hq hp).trans ?_
  rw [int_word g]
  have : ((m : Int) + 2147483648) % 4294967296 - 2147483648 = m := by omega
  rw [this]
  rfl

theorem pt_str {x : Bytes} {i : Nat} (h : Pt K vm0 ρ0 p ws s vm) (l : LnAt K p (.num 37 i) q) (hx : FMap.get K.strings x = some i) (hq : q < K.code.length) :
    ∃ vm', K.step vm = .ok vm' ∧ Pt K vm0 ρ0 q (.str 0 x :: ws) s vm' := by
  obtain ⟨l, ha, rfl⟩ := l
  have hi := g.small x i hx
  refine pt_push g h l (op := .pushs) rfl ha hq (c := .atom (.str i x)) (fun vm1 ρ as h hp => ?_) fun _ _ => ⟨rfl, g.cstr x i hx, i, rfl⟩
  refine (inc_arg g h.core.code h.pc ha hq hp).trans ?_
  have e1 : ((i : Int) % 4294967296).toNat % U16 = i := by
    unfold U16
    omega
  have e2 : Strman.get vm1.strings i = some x := by
    unfold Strman.get
    rw [h.core.strs x i hx]
    rfl
  simp only [pushS, e1]
  rw [e2]
  rfl

/-- The line of a constant. -/
theorem pt_const {t : Bytes} (h : Pt K vm0 ρ0 p ws s vm) (l : LnAt K p (Parser.constant [] t) q) (hq : q < K.code.length) :
    Sim K n R (Lang.const K.host t) s vm (fun v s' vm' => Pt K vm0 ρ0 q (v :: ws) s' vm') := by
  unfold Lang.const Lang.constVal
  unfold Parser.constant at l
  by_cases hd : 46 ∈ t
  · rw [if_pos hd] at l ⊢
    obtain ⟨l, ⟨a, ha, hw, _⟩, rfl⟩ := l
    cases hs : K.host.strtof t with
    | none => exact Sim.of_odd rfl
    | some w =>
      have hwa := hw rfl w hs
      subst hwa
      obtain ⟨vm', e, hh⟩ := pt_push g h l (op := .pushf) rfl ha hq (c := .atom (.flt (ofBits w))) (v := .flt (ofBits w))
        (fun vm1 ρ as h hp => inc_arg g h.core.code h.pc ha hq hp) fun _ _ => rfl
      exact Sim.step e (Sim.pure hh)
  · rw [if_neg hd] at l ⊢
    obtain ⟨l, ⟨a, ha, _, hw⟩, rfl⟩ := l
    cases hs : Lang.decimal t with
    | none => exact Sim.of_odd rfl
    | some w =>
      have hwa := hw rfl w hs
      subst hwa
      obtain ⟨vm', e, hh⟩ := pt_push g h l (op := .pushi) rfl ha hq (c := .atom (.int ((w + 2147483648) % 4294967296 - 2147483648)))
        (v := .int ((w + 2147483648) % 4294967296 - 2147483648))
        (fun vm1 ρ as h hp => by
          refine (inc_arg g h.core.code h.pc ha hq hp).trans ?_
          rw [int_word g]
          rfl) fun _ _ => rfl
      exact Sim.step e (Sim.pure hh)

/-! ### Jumps -/

theorem intOf_small {a : Nat} (h : a < 2147483648) : intOfU32 a = a := by
  unfold intOfU32
  rw [if_pos h]

theorem pt_jump {k : Nat} (h : Pt K vm0 ρ0 p ws s vm) (l : LnAt K p (.ref 44 k) q) (hq : q < K.code.length) :
    ∃ vm', K.step vm = .ok vm' ∧ Pt K vm0 ρ0 (K.pos k) ws s vm' := by
  obtain ⟨l, ha, hk, rfl⟩ := l
  obtain ⟨vm1, ρ, as, h, hp, e, hv⟩ := h.go g l (op := .jump) rfl
  have hs := g.size
  have e2 : exec K.E K.F vm1 .jump = .ok { vm1 with pc := (K.pos k : Int) } := by
    refine (inc_arg g h.core.code h.pc ha hq hp).trans ?_
    rw [intOf_small g (by omega)]
    unfold assertPc
    rw [if_neg]
    · rfl
    · show ¬ ((K.pos k : Int) < 0 ∨ (K.pos k : Int) ≥ vm1.code.length)
      rw [h.core.code]
      omega
  exact ⟨_, e.trans e2, h.next (hv _ e2) (Ext.refl _) rfl rfl rfl rfl rfl rfl rfl (as' := as) h.stack fun _ _ => h.reps⟩

theorem truth_img {ρ : List Nat} {v o : Obj} (h : Img ρ v o) : truth o = truth v := by
  cases v with
  | tab l => obtain ⟨a, _, rfl⟩ := h; rfl
  | clo l => obtain ⟨a, _, rfl⟩ := h; rfl
  | str i s => obtain ⟨_, _, j, rfl⟩ := h; rfl
  | nil => cases h; rfl
  | int v => cases h; rfl
  | flt f => cases h; rfl
  | user p => cases h; rfl

theorem peek_top {ρ as : List Nat} {vm : VM} (h : PtR K vm0 ρ0 p (w :: ws) s vm ρ as) : ∃ a as' c, as = a :: as' ∧ List.Forall₂ (fun w a => Rep ρ vm.heap w a) ws as' ∧
    Holds vm.heap a c ∧ Img ρ w (objOf a c) ∧ vm.stack = a :: (as' ++ vm0.stack) := by
  cases hr : h.reps with
  | @cons _ a _ as' r rs =>
    obtain ⟨c, h1, h2⟩ := r
    exact ⟨a, as', c, rfl, rs, h1, h2, h.stack⟩

theorem peek_at {vm : VM} {i : Nat} {a : Nat} {c : Cell} (h : vm.stack[i]? = some a) (hc : Holds vm.heap a c) :
    peekAddr vm (i + 1 : Nat) = .ok a ∧ peekCell vm (i + 1 : Nat) = .ok c ∧ peek vm (i + 1 : Nat) = .ok (objOf a c) := by
  obtain ⟨a', h1, h2, h3, h4, h5⟩ := VM.At.peekCell (vm := vm) (i := i) (c := c) ⟨a, h, hc⟩
  rw [h] at h1
  cases h1
  exact ⟨h3, h4, h5⟩

theorem need_of {vm : VM} {m : Int} {r : Res VM} (h : m ≤ vm.stack.length) : need vm m r = r := by
  unfold need
  rw [if_neg (by omega)]

theorem pt_branch {k : Nat} {b : Bool} {i : Nat} {op : Op} (h : Pt K vm0 ρ0 p (w :: ws) s vm) (l : LnAt K p (.ref i k) q) (hi : opcodes[i]? = some op)
    (ho : ∀ vm, exec K.E K.F vm op = incPc vm (fun vm => getArg K.E vm (fun vm a => jumpIf vm b a))) (hq : q < K.code.length) :
    ∃ vm', K.step vm = .ok vm' ∧ Pt K vm0 ρ0 (if truth w = b then K.pos k else q) ws s vm' := by
  obtain ⟨l, ha, hk, rfl⟩ := l
  obtain ⟨vm1, ρ, as, h, hp, e, hv⟩ := h.go g l hi
  have hs := g.size
  obtain ⟨a, as', c, rfl, rs, h1, h2, hst⟩ := peek_top g h
  have e2 : exec K.E K.F vm1 op = .ok { vm1 with pc := ((if truth w = b then K.pos k else p + 5 : Nat) : Int), stack := as' ++ vm0.stack } := by
    rw [ho]
    refine (inc_arg g h.core.code h.pc ha hq hp).trans ?_
    unfold jumpIf
    have hpk := (peek_at g (vm := { vm1 with pc := ((p + 5 : Nat) : Int) }) (i := 0) (a := a) (c := c) (by show vm1.stack[0]? = _; rw [hst]; rfl) h1).2.2
    simp only [Nat.zero_add, Nat.cast_one] at hpk
    rw [need_of g (by show (1 : Int) ≤ vm1.stack.length; rw [hst]; simp; omega), hpk, Res.ok_bind, truth_img g h2]
    by_cases ht : truth w = b
    · rw [if_pos ht, if_pos ht, intOf_small g (by omega)]
      unfold assertPc
      rw [if_neg]
      · simp only [pop, hst, List.isEmpty_cons, Bool.false_eq_true, if_false, popN, List.drop_succ_cons, List.drop_zero]
        rfl
      · show ¬ ((K.pos k : Int) < 0 ∨ (K.pos k : Int) ≥ vm1.code.length)
        rw [h.core.code]
        omega
    · rw [if_neg ht, if_neg ht]
      simp only [pop, hst, List.isEmpty_cons, Bool.false_eq_true, if_false, popN, List.drop_succ_cons, List.drop_zero]
      rfl
  exact ⟨_, e.trans e2, h.next (hv _ e2) (Ext.refl _) rfl rfl rfl rfl rfl rfl rfl (as' := as') rfl fun _ _ => rs⟩

end

end Buzz.Sim
