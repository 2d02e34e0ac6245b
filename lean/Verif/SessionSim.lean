import Verif.HostCall
import Verif.Props.Compiler
import Verif.Props.Phrases

/-
A robot with a program: the machine does in every round what the program means.
-/
namespace Buzz.Sim

open Buzz.Msg Buzz.Heap Buzz.Props Buzz.VM
open Buzz.Lang (Ast Thing Scope Shape St Host Regs)
open Buzz.Parser (Ln)
open Buzz.Comp (CS EC Sub Loc Tabs comp bodyC)

variable {K : Ctx} {G : CFuns} {s s' : St} {vm vm' : VM}

/-! ### Commands of the host -/

theorem reg_nf {id : Obj} {c : Cmd} {r r' : Regs} (e : Lang.reg id c r s = .ok r' s') : r.nf ≤ r'.nf := by
  cases c with
  | func => cases e; exact Nat.le_succ _
  | top =>
    simp only [Lang.reg] at e
    cases hw : r.ws with
    | nil => rw [hw] at e; cases e
    | cons v ws => rw [hw] at e; cases e; exact le_refl _
  | push =>
    simp only [Lang.reg] at e
    cases hw : r.t with
    | none => rw [hw] at e; cases e
    | some v => rw [hw] at e; cases e; exact le_refl _
  | dup =>
    simp only [Lang.reg] at e
    cases hw : r.ws with
    | nil => rw [hw] at e; cases e
    | cons v ws => rw [hw] at e; cases e; exact le_refl _
  | put =>
    obtain ⟨v, k, x, ws, hw, e1, rfl⟩ := reg_put e
    exact le_refl _
  | store =>
    obtain ⟨v, x, ws, hw, rfl, rfl⟩ := reg_store e
    exact le_refl _
  | load =>
    obtain ⟨x, ws, hw, hx, rfl, rfl⟩ := reg_load e
    exact le_refl _
  | resetNbrs =>
    obtain ⟨_, s1, e1, e2⟩ := bindL_ok e
    cases e2
    exact le_refl _
  | addNbr n d a e' =>
    obtain ⟨_, s1, e1, e2⟩ := bindL_ok e
    cases e2
    exact le_refl _
  | _ => cases e; exact le_refl _

theorem regs_nf {id : Obj} : ∀ {cs : List Cmd} {r r' : Regs} {s s' : St}, Lang.regs id cs r s = .ok r' s' → r.nf ≤ r'.nf
  | [], _, _, _, _, e => by cases e; exact le_refl _
  | c :: cs, r, r', s, s', e => by
    obtain ⟨r1, s1, e1, e2⟩ := bindL_ok e
    exact (reg_nf e1).trans (regs_nf e2)

/-- A command that is fine, on the table `neighbors` only if the program knows this name. -/
def Able (K : Ctx) (c : Cmd) : Prop := Fine c ∧ (c.nbr = true → ∃ i, FMap.get K.strings (ascii "neighbors") = some i)

/-- Several commands, as long as the table of strings has room. -/
theorem In.cmds_room (g : Good K) {vm0 : VM} {ρ0 : List Nat} {p : Nat} {robot : Nat} (hrob : robot < 65536) (cs : List Cmd) : ∀ {r r' : Regs} {s s' : St} {vm : VM} {t : Nat},
    In K vm0 ρ0 p r s vm t → (∀ c ∈ cs, Able K c) → r'.nf ≤ 65535 → Lang.regs (.int (robot : Int)) cs r s = .ok r' s' →
    (∃ pre c x, pre ++ [c] <+: cs ∧ VM.cmds K.E robot pre (vm, t) = .ok x ∧ 65534 < x.1.strings.id2str.length + c.names) ∨ ∃ vm' t', VM.cmds K.E robot cs (vm, t) = .ok (vm', t') ∧ In K vm0 ρ0 p r' s' vm' t' := by
  induction cs with
  | nil =>
    intro r r' s s' vm t h _ _ e
    cases e
    exact .inr ⟨vm, t, rfl, h⟩
  | cons c cs ih =>
    intro r r' s s' vm t h hc hn e
    by_cases hl : vm.strings.id2str.length + c.names ≤ 65534
    swap
    · exact .inl ⟨[], c, (vm, t), ⟨cs, rfl⟩, rfl, Nat.lt_of_not_le hl⟩
    obtain ⟨r1, s1, e1, e2⟩ := bindL_ok e
    have h1 := reg_nf e1
    have h2 := regs_nf e2
    obtain ⟨vm1, t1, k1, k2, k3, k4⟩ := h.cmd g hrob c (hc c (List.mem_cons_self ..)).1 (hc c (List.mem_cons_self ..)).2 hl (by omega) e1
    rcases ih k2 (fun c hm => hc c (List.mem_cons_of_mem _ hm)) hn e2 with ⟨pre, c', x, j1, j2, j3⟩ | ⟨vm2, t2, k5, k6⟩
    · refine .inl ⟨c :: pre, c', x, List.cons_prefix_cons.mpr ⟨rfl, j1⟩, ?_, j3⟩
      simp only [VM.cmds, k1, Res.ok_bind]
      exact j2
    · refine .inr ⟨vm2, t2, ?_, k6⟩
      simp only [VM.cmds, k1, Res.ok_bind]
      exact k5

/-! ### Between the calls -/

/-- The machine is in the state `s` of the program, and no function runs. -/
structure Idle (K : Ctx) (s : St) (vm : VM) : Prop where
  top : s.scope = .top
  frames : vm.frames = []
  rest : vm.rest = []
  stack : vm.stack = []
  floor : K.floor = 0
  core : ∃ ρ, Core K ρ s vm
  pc : ∃ p : Nat, vm.pc = (p : Int) ∧ p < K.code.length

theorem Idle.pt {ρ : List Nat} {p : Nat} (h : Idle K s vm) (hc : Core K ρ s vm) (hp : vm.pc = (p : Int)) : PtR K vm ρ p [] s vm ρ [] where
  core := hc
  sc := by rw [h.top]; exact h.frames
  pc := hp
  stack := rfl
  reps := .nil
  rest := rfl
  tail := rfl
  depth := rfl
  evo := Evo.refl _
  pre := List.prefix_refl _
  floor := by rw [h.floor]; exact Nat.zero_le _

theorem Core.other {lib : Lang.Lib} {ρ : List Nat} (h : Core K ρ s vm) : Core { K with lib := lib } ρ s vm := by
  have := h.lib (lib := lib) (n := K.nfuns) (le_refl _)
  have e : ({ vm with nfuns := K.nfuns } : VM) = vm := by rw [← h.nfuns]
  rw [e] at this
  exact this

theorem Idle.start (h : Idle K s vm) : ∃ ρ p, p < K.code.length ∧ vm.pc = (p : Int) ∧ In K vm ρ p ⟨none, [], K.nfuns, none⟩ s vm 0 := by
  obtain ⟨ρ, hc⟩ := h.core
  obtain ⟨p, h1, h2⟩ := h.pc
  refine ⟨ρ, p, h2, h1, ρ, [], ?_, h.top, ⟨by rintro v ⟨⟩, by rintro x ⟨⟩⟩⟩
  have := h.pt hc h1
  exact { this with core := hc.other }

/-- What the host does leaves the machine in the state that it means. -/
theorem host_sim (g : Good K) {robot nf : Nat} (hrob : robot < 65536) {cs : List Cmd} (hc : ∀ c ∈ cs, Able K c) (h : Idle K s vm) (e : Lang.hostRegs robot cs K.nfuns s = .ok nf s') :
    CmdsCrowd K.E robot cs vm ∨ ∃ x, VM.cmds K.E robot cs (vm, 0) = .ok x ∧ Idle { K with nfuns := nf } s' x.1 ∧ x.1.pc = vm.pc := by
  unfold Lang.hostRegs at e
  cases hr : Lang.regs (.int (robot : Int)) cs ⟨none, [], K.nfuns, none⟩ s with
  | ok r s1 =>
    rw [hr] at e
    simp only at e
    by_cases hw : r.ws.isEmpty ∧ r.nf ≤ 65535
    · rw [if_pos hw] at e
      cases e
      obtain ⟨ρ, p, hp, hpc, hin⟩ := h.start
      rcases In.cmds_room g hrob cs hin hc hw.2 hr with hx | ⟨vm', t', k1, ρ', as, k2, k3, _⟩
      · exact .inl hx
      · refine .inr ⟨(vm', t'), k1, ?_, by rw [hpc]; exact k2.pc⟩
        obtain ⟨rt, rws, rnf, rl⟩ := r
        obtain rfl : rws = [] := List.isEmpty_iff.mp hw.1
        have hst := k2.stack
        cases k2.reps
        have hsc := k2.sc
        rw [k3] at hsc
        exact ⟨k3, hsc, k2.rest.trans h.rest, hst.trans h.stack, h.floor, ⟨ρ', Core.other (K := upTo K rnf) (lib := K.lib) k2.core⟩, p, k2.pc, hp⟩
    · rw [if_neg hw] at e
      cases e
  | _ => rw [hr] at e; cases e

/-! ### Calls -/

/-- With enough steps the machine gets from `vm` to `vm'`, with fewer it does not stop. -/
def Ends (act : Nat → VM → Res VM) (vm vm' : VM) : Prop := (∃ N, ∀ m ≥ N, act m vm = .ok vm') ∧ ∀ m, act m vm = .ok vm' ∨ act m vm = .hang

theorem Ends.of {act : Nat → VM → Res VM} (h : ∃ N, ∀ m ≥ N, act m vm = .ok vm') (k : ∀ {N m w}, act N vm = .ok w → act m vm = .ok w ∨ act m vm = .hang) : Ends act vm vm' := by
  obtain ⟨N, hN⟩ := h
  exact ⟨⟨N, hN⟩, fun m => k (hN N (le_refl _))⟩

/-- The variable with the function is loaded. -/
theorem gload_sim (g : Good K) {ρ0 ρ as : List Nat} {p i : Nat} {x : Bytes} {vm0 : VM} (h : PtR K vm0 ρ0 p [.str 0 x] s vm ρ as) (hx : FMap.get K.strings x = some i) :
    ∃ v a, gload vm = .ok v ∧ Core K ρ s v ∧ v.stack = a :: vm0.stack ∧ v.rest = vm.rest ∧ v.frames = vm.frames ∧ v.pc = vm.pc ∧ Rep ρ v.heap (Lang.globalVal x s) a := by
  obtain ⟨a, as', c, rfl, rs, h1, h2, hst⟩ := peek_top g h
  cases rs
  have hs := sid_eq g h.core h1 h2 hx
  have p1 := (peek_at g (vm := vm) (i := 0) (by rw [hst]; rfl) h1).2.2
  simp only [Nat.zero_add, Nat.cast_one] at p1
  obtain ⟨g1, g2⟩ := h.core.globals x i hx
  have hpop : popN vm 1 = { vm with stack := vm0.stack } := by
    unfold popN
    rw [hst]
    rfl
  have e : gload vm = match FMap.get vm.gsyms i with
      | some a => .ok (pushAddr (popN vm 1) a)
      | none => .ok (pushNil (popN vm 1)) := by
    unfold gload
    rw [need_of g (by rw [hst]; simp), p1, Res.ok_bind, hs]
    rfl
  cases hg : FMap.get vm.gsyms i with
  | some b =>
    rw [hg] at e
    have iv := (h.core.inv.popN 1).pushAddr (a := b) (g1 b hg).live
    rw [hpop] at e iv
    refine ⟨_, b, e, ?_, rfl, rfl, rfl, rfl, g1 b hg⟩
    exact h.core.ext iv h.core.ready rfl (fun _ _ h => h) (Ext.refl _) rfl rfl rfl
  | none =>
    rw [hg] at e
    have iv := (h.core.inv.popN 1).push (c := .atom .nil) trivial
    rw [hpop] at e iv
    have ex : Ext vm.heap (newobj vm.heap (.atom .nil)).1 := ext_new h.core.inv.heap _
    refine ⟨_, (newobj vm.heap (.atom .nil)).2, e, ?_, rfl, rfl, rfl, rfl, ?_⟩
    · exact h.core.ext iv h.core.ready rfl (fun _ _ h => h) ex rfl rfl rfl
    · rw [g2 hg]
      exact ⟨_, holds_new h.core.inv.heap _, rfl⟩

theorem inFunction_scope {env : List (Bytes × Obj)} {x : Lang.Ev (List Obj)} {v : Obj} (e : Lang.inFunction env x s = .ok v s') : s'.scope = s.scope := by
  unfold Lang.inFunction at e
  cases hx : x { s with scope := .fn env } with
  | ok a s1 => rw [hx] at e; cases e; rfl
  | ret a s1 => rw [hx] at e; cases e; rfl
  | _ => rw [hx] at e; cases e

theorem apply_scope {lib : Lang.Lib} {run : Ast → Lang.Ev (List Obj)} {l : Nat} {ps : List Bytes} {b : Ast} {env : List (Bytes × Obj)} {v : Obj} (hs : s.store[l]? = some (.fn ps b env))
    (e : Lang.apply lib run (.clo l) [] s = .ok v s') : s'.scope = s.scope := by
  rw [apply_eq (by unfold Lang.limit; simp)] at e
  obtain ⟨t, s1, e1, e2⟩ := bindL_ok e
  rw [look_some hs] at e1
  cases e1
  simp only at e2
  split at e2
  · exact inFunction_scope e2
  · cases e2

/-- **A function of the script called from the controller does what it means.** -/
theorem call_sim (g : Good K) (hU : Link.Under K.F G) {x : Bytes} {i : Nat} (hx : FMap.get K.strings x = some i) {st : VM.State} (hst : st = .ready ∨ st = .done) (h : Idle K s vm) (n : Nat) :
    CallCrowd K.E G x { vm with state := st } ∨ match Lang.callGlobal K.host n x s with
    | .ok _ s' => ∃ vm', Ends (fun m => callPop K.E G m x) { vm with state := st } vm' ∧ Idle K s' vm'
    | .ret _ _ => False
    | .err e => ∃ vm', Ends (fun m => callPop K.E G m x) { vm with state := st } vm' ∧ vm'.state = .error ∧ vm'.error = e
    | .odd => True
    | .time => ∀ m < n, callPop K.E G m x { vm with state := st } = .hang := by
  by_cases hl : vm.strings.id2str.length ≤ 65533
  swap
  · exact .inl (.inl (Nat.lt_of_not_le hl))
  obtain ⟨ρ0, p, hp, hpc, hin⟩ := h.start
  obtain ⟨sm, id, k1, _, ρ, as, k3, _, _⟩ := hin.string (b := false) hl (g.cstr x i hx)
  have k3 : PtR K vm ρ0 p [.str 0 x] s (pushS { vm with strings := sm } id) ρ as := { k3 with core := Core.other (K := upTo K K.nfuns) (lib := K.lib) k3.core }
  obtain ⟨v, a, q1, q2, q3, q4, q5, q6, q7⟩ := gload_sim g k3 hx
  have hready : vm.state = .ready := h.core.choose_spec.ready
  have hwake : ({ vm with strings := sm, state := .ready } : VM) = { vm with strings := sm } := by rw [← hready]
  have hf : ∀ m, functionCall K.E G m x 0 { vm with state := st } = (peekCell v 1 >>= fun f => match f with
      | .clo _ _ _ => closureCall K.E G m 0 v
      | _ => .ok (setErr v .type)) := by
    intro m
    have e0 : (if ({ vm with state := st } : VM).state = .done then { ({ vm with state := st } : VM) with state := .ready } else { vm with state := st }) = vm := by
      have : ({ vm with state := .ready } : VM) = vm := by rw [← hready]
      rcases hst with rfl | rfl
      · rw [if_neg (by simp)]; exact this
      · rw [if_pos rfl]; exact this
    unfold functionCall
    simp only [e0]
    rw [if_neg (by simp [hready]), k1, Res.ok_bind]
    simp only
    rw [q1, Res.ok_bind]
    rfl
  have hvs : v.stack = [a] := by rw [q3, h.stack]
  have hvr : v.rest = [] := q4.trans (k3.rest.trans h.rest)
  have hvp : v.pc = (p : Int) := q6.trans k3.pc
  have hvf : v.frames = [] := by
    have := k3.sc
    rw [h.top] at this
    exact q5.trans this
  obtain ⟨c, c1, c2⟩ := _root_.id q7
  have hcell : peekCell v 1 = .ok c := (peek_at g (vm := v) (i := 0) (by rw [hvs]; rfl) c1).2.1
  simp only [hcell, Res.ok_bind] at hf
  -- a value that is no closure
  have other : (∀ b r l, c ≠ .clo b r l) → ∃ vm', Ends (fun m => callPop K.E G m x) { vm with state := st } vm' ∧ vm'.state = .error ∧ vm'.error = .type := by
    intro hc
    have : ∀ m, callPop K.E G m x { vm with state := st } = .ok (setErr v .type) := by
      intro m
      unfold callPop
      rw [hf m]
      cases c with
      | clo b r l => exact absurd rfl (hc b r l)
      | tab t => rfl
      | atom o => rfl
    exact ⟨_, ⟨⟨0, fun m _ => this m⟩, fun m => .inl (this m)⟩, rfl, rfl⟩
  unfold Lang.callGlobal
  cases hv : Lang.globalVal x s with
  | clo l =>
    simp only
    cases hs : s.store[l]? with
    | none => exact .inr trivial
    | some t =>
      cases t with
      | tab es => exact .inr trivial
      | host m env => exact .inr trivial
      | fn ps b env =>
        simp only
        rw [hv] at q7 c2
        obtain ⟨_, cn, cr, cl, rfl⟩ := clo_cell q2.inv c1 c2
        simp only at hf
        have key := closureCall_sim (vs := []) (bs := []) (S := []) g hU q2 hvp hp hvs .nil q7 hs n
        rcases key with ⟨_, u, k, w, j1, j2, j3⟩ | key
        · refine .inl (.inr ⟨(sm, id), v, u, k, w, k1, ?_, j1, j2, j3⟩)
          rw [hwake]
          exact q1
        refine .inr ?_
        have ends : ∀ w, (∃ N, ∀ m ≥ N, closureCall K.E G m 0 v = .ok w) → Ends (fun m => callPop K.E G m x) { vm with state := st } (if w.state = .ready then pop w else w) := by
          intro w hw
          have e1 := Ends.of (act := fun m => closureCall K.E G m 0) hw closureCall_either
          have e2 : ∀ m, closureCall K.E G m 0 v = .ok w → callPop K.E G m x { vm with state := st } = .ok (if w.state = .ready then pop w else w) := by
            intro m hm
            unfold callPop
            rw [hf m, hm, Res.ok_bind]
            split <;> rfl
          obtain ⟨⟨N, hN⟩, hm⟩ := e1
          refine ⟨⟨N, fun m hm => e2 m (hN m hm)⟩, fun m => ?_⟩
          rcases hm m with hm | hm
          · exact .inl (e2 m hm)
          · refine .inr ?_
            show callPop K.E G m x { vm with state := st } = .hang
            unfold callPop
            rw [hf m, show closureCall K.E G m 0 v = .hang from hm]
            rfl
        cases ha : Lang.apply K.host.lib (Lang.exec K.host n) (.clo l) [] s with
        | ok o s' =>
          rw [show Lang.apply K.lib (Lang.exec K.host n) (.clo l) [] s = _ from ha] at key
          obtain ⟨ρ', a', w, j1, j2⟩ := key
          refine ⟨_, ends w j2, ?_⟩
          have j3 := j1.core
          rw [if_pos j3.ready]
          have j4 : pop w = popN w 1 := by
            unfold pop
            rw [j1.stack]
            rfl
          rw [j4]
          refine ⟨(apply_scope hs ha).trans h.top, j1.frames.trans hvf, j1.rest.trans hvr, ?_, h.floor, ⟨ρ', ?_⟩, p, j1.pc.trans hvp, hp⟩
          · show w.stack.drop 1 = []
            rw [j1.stack]
            rfl
          · exact j3.ext (j3.inv.popN 1) j3.ready rfl (fun _ _ h => h) (Ext.refl _) rfl rfl rfl
        | ret o s' =>
          rw [show Lang.apply K.lib (Lang.exec K.host n) (.clo l) [] s = _ from ha] at key
          exact key
        | err e =>
          rw [show Lang.apply K.lib (Lang.exec K.host n) (.clo l) [] s = _ from ha] at key
          obtain ⟨w, j1, j2, j3⟩ := key
          refine ⟨_, ends w j3, ?_⟩
          rw [if_neg (by rw [j1]; simp)]
          exact ⟨j1, j2⟩
        | odd => trivial
        | time =>
          rw [show Lang.apply K.lib (Lang.exec K.host n) (.clo l) [] s = _ from ha] at key
          intro m hm
          unfold callPop
          rw [hf m, show closureCall K.E G m 0 v = .hang from key m hm]
          rfl
  | _ =>
    refine .inr (other ?_)
    rintro b r l rfl
    rw [hv] at c2
    first
    | (obtain ⟨_, _, c3⟩ := c2; cases c3; done)
    | (obtain ⟨_, _, _, c3⟩ := c2; cases c3; done)
    | (cases c2; done)

/-! ### Rounds -/

theorem bindL_time {α β : Type} {x : Lang.Ev α} {f : α → Lang.Ev β} (h : x s = .time) : (x >>= f) s = .time := by
  show (match x s with | .ok a s => f a s | .ret v s => .ret v s | .err e => .err e | .odd => .odd | .time => .time) = _
  rw [h]

theorem hostRegs_or {robot nf : Nat} {cs : List Cmd} : (∃ k s', Lang.hostRegs robot cs nf s = .ok k s') ∨ Lang.hostRegs robot cs nf s = .odd := by
  unfold Lang.hostRegs
  split
  · split
    · exact .inl ⟨_, _, rfl⟩
    · exact .inr rfl
  · exact .inr rfl

/-- **A round of the controller does what it means.** -/
theorem round_sim (g : Good K) (hU : Link.Under K.F G) {x : Bytes} {i : Nat} (hx : FMap.get K.strings x = some i) {robot : Nat} (hrob : robot < 65536) {cs : List Cmd} (hc : ∀ c ∈ cs, Able K c)
    (h : Idle K s vm) (n : Nat) :
    (CmdsCrowd K.E robot cs vm ∨ ∃ y, VM.cmds K.E robot cs (vm, 0) = .ok y ∧ CallCrowd K.E G x y.1) ∨ match Lang.round K.host n robot K.nfuns x cs s with
    | .ok _ s' => ∃ vm', Ends (fun m => controlStep K.E G m robot x cs) vm vm' ∧ Idle K s' vm'
    | .ret _ _ => False
    | .err e => ∃ vm', Ends (fun m => controlStep K.E G m robot x cs) vm vm' ∧ vm'.state = .error ∧ vm'.error = e
    | .odd => True
    | .time => ∀ m < n, controlStep K.E G m robot x cs vm = .hang := by
  unfold Lang.round
  rcases hostRegs_or (robot := robot) (nf := K.nfuns) (cs := cs) (s := s) with ⟨k, s1, hr⟩ | hr
  swap
  · rw [bind_odd hr]
    exact .inr trivial
  rw [bind_eq hr]
  by_cases hk : k = K.nfuns
  swap
  · rw [if_neg hk]
    exact .inr trivial
  rw [if_pos hk]
  subst hk
  rcases host_sim g hrob hc h hr with hcr | ⟨y, h1, h2, _⟩
  · exact .inl (.inl hcr)
  have hready : vm.state = .ready := h.core.choose_spec.ready
  have hyr : y.1.state = .ready := h2.core.choose_spec.ready
  have hstep : ∀ m, controlStep K.E G m robot x cs vm = callPop K.E G m x y.1 := by
    intro m
    unfold controlStep
    rw [if_pos hready, h1, Res.ok_bind]
  have hy : ({ y.1 with state := .ready } : VM) = y.1 := by rw [← hyr]
  have key := call_sim (K := K) g hU hx (.inl rfl) h2 n
  rw [hy] at key
  rcases key with hcr | key
  · exact .inl (.inr ⟨y, h1, hcr⟩)
  refine .inr ?_
  have ends : ∀ w, Ends (fun m => callPop K.E G m x) y.1 w → Ends (fun m => controlStep K.E G m robot x cs) vm w := by
    rintro w ⟨⟨N, a⟩, b⟩
    exact ⟨⟨N, fun m hm => (hstep m).trans (a m hm)⟩, fun m => (b m).imp (fun b => (hstep m).trans b) (fun b => (hstep m).trans b)⟩
  cases ha : Lang.callGlobal K.host n x s1 with
  | ok v s2 =>
    rw [ha] at key
    rw [bind_eq ha]
    obtain ⟨w, j1, j2⟩ := key
    exact ⟨w, ends w j1, j2⟩
  | ret v s2 => rw [ha] at key; exact key.elim
  | err e =>
    rw [ha] at key
    rw [bindL_err ha]
    obtain ⟨w, j1, j2⟩ := key
    exact ⟨w, ends w j1, j2⟩
  | odd =>
    rw [bind_odd ha]
    trivial
  | time =>
    rw [ha] at key
    rw [bindL_time ha]
    intro m hm
    rw [hstep m]
    exact key m hm

/-- Without a machine that is ready nothing happens. -/
theorem controlSteps_stay {E : Env} {F : CFuns} {m robot : Nat} {x : Bytes} (h : vm.state ≠ .ready) : ∀ rs, controlSteps E F m robot x rs vm = .ok vm
  | [] => rfl
  | cs :: rs => by
    rw [controlSteps]
    unfold controlStep
    rw [if_neg h]
    show controlSteps E F m robot x rs vm = .ok vm
    exact controlSteps_stay h rs

/-- One thing after the other. -/
theorem Ends.seq {a b : Nat → VM → Res VM} {u v w : VM} (h : Ends a u v) (k : Ends b v w) : Ends (fun m x => a m x >>= b m) u w := by
  obtain ⟨⟨N, h1⟩, h2⟩ := h
  obtain ⟨⟨M, k1⟩, k2⟩ := k
  refine ⟨⟨max N M, fun m hm => ?_⟩, fun m => ?_⟩
  · show (a m u >>= b m) = _
    rw [h1 m (le_trans (le_max_left _ _) hm), Res.ok_bind]
    exact k1 m (le_trans (le_max_right _ _) hm)
  · show (a m u >>= b m) = _ ∨ (a m u >>= b m) = _
    rcases h2 m with h | h
    · rw [h, Res.ok_bind]
      exact k2 m
    · rw [h]
      exact .inr rfl

theorem Ends.late {a b : Nat → VM → Res VM} {u v : VM} (h : Ends a u v) {m : Nat} (k : b m v = .hang) : (a m u >>= b m) = .hang := by
  rcases h.2 m with h | h
  · rw [h, Res.ok_bind]
    exact k
  · rw [h]
    rfl

/-- **The rounds of the controller do what they mean.** -/
theorem rounds_sim (g : Good K) (hU : Link.Under K.F G) {x : Bytes} {i : Nat} (hx : FMap.get K.strings x = some i) {robot : Nat} (hrob : robot < 65536) (n : Nat) :
    ∀ {rs : List (List Cmd)} {s : St} {vm : VM}, (∀ cs ∈ rs, ∀ c ∈ cs, Able K c) → Idle K s vm →
    StepsCrowd K.E G robot x rs vm ∨ match Lang.rounds K.host n robot K.nfuns x rs s with
    | .ok _ s' => ∃ vm', Ends (fun m => controlSteps K.E G m robot x rs) vm vm' ∧ Idle K s' vm'
    | .ret _ _ => False
    | .err e => ∃ vm', Ends (fun m => controlSteps K.E G m robot x rs) vm vm' ∧ vm'.state = .error ∧ vm'.error = e
    | .odd => True
    | .time => ∀ m < n, controlSteps K.E G m robot x rs vm = .hang
  | [], s, vm, _, h => .inr ⟨vm, ⟨⟨0, fun _ _ => rfl⟩, fun _ => .inl rfl⟩, h⟩
  | cs :: rs, s, vm, hc, h => by
    have hready : vm.state = .ready := h.core.choose_spec.ready
    have ends0 : ∀ {v w}, Ends (fun m => controlStep K.E G m robot x cs) vm v → Ends (fun m => controlSteps K.E G m robot x rs) v w → Ends (fun m => controlSteps K.E G m robot x (cs :: rs)) vm w :=
      fun a b => a.seq b
    rcases round_sim g hU hx hrob (hc cs (List.mem_cons_self ..)) h n with (hcr | hcr) | key
    · exact .inl ⟨hready, .inl hcr⟩
    · exact .inl ⟨hready, .inr (.inl hcr)⟩
    rw [Lang.rounds]
    cases ha : Lang.round K.host n robot K.nfuns x cs s with
    | ok u s1 =>
      rw [ha] at key
      rw [bind_eq ha]
      obtain ⟨v, j1, j2⟩ := key
      rcases rounds_sim g hU hx hrob n (fun cs h => hc cs (List.mem_cons_of_mem _ h)) j2 with hcr | key2
      · obtain ⟨⟨N, j3⟩, _⟩ := j1
        exact .inl ⟨hready, .inr (.inr ⟨N, v, j3 N (le_refl _), hcr⟩)⟩
      refine .inr ?_
      cases hb : Lang.rounds K.host n robot K.nfuns x rs s1 with
      | ok u2 s2 =>
        rw [hb] at key2
        obtain ⟨w, k1, k2⟩ := key2
        exact ⟨w, ends0 j1 k1, k2⟩
      | ret u2 s2 => rw [hb] at key2; exact key2
      | err e =>
        rw [hb] at key2
        obtain ⟨w, k1, k2⟩ := key2
        exact ⟨w, ends0 j1 k1, k2⟩
      | odd => trivial
      | time =>
        rw [hb] at key2
        exact fun m hm => j1.late (b := fun m => controlSteps K.E G m robot x rs) (key2 m hm)
    | ret u s1 => rw [ha] at key; exact key.elim
    | err e =>
      rw [ha] at key
      rw [bindL_err ha]
      obtain ⟨v, j1, j2, j3⟩ := key
      have hn : v.state ≠ .ready := by rw [j2]; simp
      exact .inr ⟨v, ends0 j1 ⟨⟨0, fun _ _ => controlSteps_stay hn rs⟩, fun _ => .inl (controlSteps_stay hn rs)⟩, j2, j3⟩
    | odd =>
      rw [bind_odd ha]
      exact .inr trivial
    | time =>
      rw [ha] at key
      rw [bindL_time ha]
      refine .inr fun m hm => ?_
      rw [controlSteps, key m hm]
      rfl

end Buzz.Sim

namespace Buzz.Link

open Buzz.Msg Buzz.Debug Buzz.Asm Buzz.Props Buzz.Parser Buzz.Comp Buzz.VM Buzz.Sim
open Buzz.Lang (Ast Shape St)

variable {T : Tools} {pre : List Bytes} {b : Ast} {o : Out} {cs : List Chunk} {E : Env} {other : CFuns}

/-- The surroundings of a program with the library and functions of a controller. -/
abbrev botCtx (T : Tools) (pre : List Bytes) (b : Ast) (o : Out) (cs : List Chunk) (E : Env) (other : CFuns) (nf : Nat) : Ctx :=
  ctxOf T pre b o cs E (guarded (stdFuns E other)) ⟨Lang.stdLib, nf, true⟩

theorem botCtx_ok {nf : Nat} (hE : Obj.StrcmpLaw E.sc) : LibOk (botCtx T pre b o cs E other nf) :=
  std_ok (E := E) (other := other) (fun n vm h => by show guarded _ n vm = _; unfold guarded; rw [if_pos h]) rfl rfl rfl hE

/-- The program begins within the bytecode. -/
theorem pos_lt (h : Result T pre b o cs) (hP : Program T pre b) (he : E.endian = T.endian) (hs : (bytecode T pre b o cs).length ≤ 2147483647) {F : CFuns} {L : Hosts} :
    (ctxOf T pre b o cs E F L).pos 0 < (ctxOf T pre b o cs E F L).code.length := by
  have hpl : Placed (ctxOf T pre b o cs E F L) (chunksOf o) := by
    rw [← h.chunks]
    exact (h.linked he hs).placed hP.nums h.code
  obtain ⟨q', h1, h2⟩ := hpl _ List.mem_cons_self
  obtain ⟨q, h3, h4⟩ := codeAt_append.mp h1
  obtain ⟨q1, h5, q2, h6, h7⟩ := h4
  have : (ctxOf T pre b o cs E F L).pos 0 ≤ q := h3.le
  cases h5
  cases h7
  have := h6.2
  omega

/-- A command of the host that is fine; commands on the table `neighbors` are for programs in which this name occurs. -/
def Suits (pre : List Bytes) (b : Ast) (c : Cmd) : Prop := Sim.Fine c ∧ (c.nbr = true → ascii "neighbors" ∈ stringsOf pre b)

/-- **A machine with a program in the hands of a controller does what the program means.** -/
theorem control_sim (h : Result T pre b o cs) (hP : Program T pre b) (he : E.endian = T.endian) (hs : (bytecode T pre b o cs).length ≤ 2147483647) (ho : FOk other) (hE : Obj.StrcmpLaw E.sc)
    (hb : Lang.isStat b = true) {vm : VM} {s : St} {robot : Nat} (hrob : robot < 65536) {init step : Bytes} (hi : init ∈ stringsOf pre b) (ht : step ∈ stringsOf pre b)
    {setup : List Cmd} {rs : List (List Cmd)} (hf : ∀ c ∈ setup, Suits pre b c) (hr : ∀ cs ∈ rs, ∀ c ∈ cs, Suits pre b c)
    (hid : Idle (libCtx T pre b o cs E other) s vm) (hpc : vm.pc = ((libCtx T pre b o cs E other).pos 0 : Int)) (n : Nat) :
    ControlCrowd E (stdFuns E other) robot init step setup rs vm ∨ match Lang.life ⟨E, T.strtof, Lang.stdLib⟩ n robot init step setup rs b s with
    | .ok _ s' => ∃ nf vm', Ends (fun m => control E (stdFuns E other) m robot init step setup rs) vm vm' ∧ Idle (botCtx T pre b o cs E other nf) s' vm'
    | .ret _ _ => False
    | .err e => ∃ vm', Ends (fun m => control E (stdFuns E other) m robot init step setup rs) vm vm' ∧ vm'.state = .error ∧ vm'.error = e
    | .odd => True
    | .time => ∀ m < n, control E (stdFuns E other) m robot init step setup rs vm = .hang := by
  have hG : FOk (guarded (stdFuns E other)) := guarded_ok ho
  have g0 : Good (libCtx T pre b o cs E other) := goodOf hP hs hG hE (libCtx_ok hE)
  have hnum : ∀ x ∈ stringsOf pre b, ∃ i, FMap.get (libCtx T pre b o cs E other).strings x = some i := by
    intro x hx
    obtain ⟨i, hi, e⟩ := List.getElem_of_mem hx
    exact ⟨i, numbered_at (stringsOf_nodup pre b) hP.count i x (by rw [List.getElem?_eq_getElem hi, e])⟩
  obtain ⟨i0, hi0⟩ := hnum _ hi
  obtain ⟨i1, hi1⟩ := hnum _ ht
  have able : ∀ {nf c}, Suits pre b c → Able (botCtx T pre b o cs E other nf) c := fun h => ⟨h.1, fun e => hnum _ (h.2 e)⟩
  unfold Lang.life
  rcases hostRegs_or (robot := robot) (nf := 65) (cs := setup) (s := s) with ⟨nf, s1, h1⟩ | h1
  swap
  · rw [bind_odd h1]
    exact .inr trivial
  rw [bind_eq h1]
  rcases host_sim g0 hrob (fun c hc => able (nf := 65) (hf c hc)) hid h1 with hcr | ⟨y, h2, h3, h4⟩
  · exact .inl (.inl hcr)
  have h3 : Idle (botCtx T pre b o cs E other nf) s1 y.1 := h3
  have g : Good (botCtx T pre b o cs E other nf) := goodOf hP hs hG hE (botCtx_ok hE)
  have hyr : y.1.state = .ready := h3.core.choose_spec.ready
  obtain ⟨ρ, hc⟩ := h3.core
  have hpt : Pt (botCtx T pre b o cs E other nf) y.1 ρ ((botCtx T pre b o cs E other nf).pos 0) [] s1 y.1 := ⟨ρ, [], h3.pt hc (h4.trans hpc)⟩
  have hctl : ∀ m, control E (stdFuns E other) m robot init step setup rs vm = (VM.run E (stdFuns E other) m y.1 >>= fun vm => if vm.state ≠ .done then pure vm else
      callPop E (stdFuns E other) m init vm >>= fun vm => controlSteps E (stdFuns E other) m robot step rs vm) := by
    intro m
    unfold VM.control
    rw [show VM.cmds E robot setup (vm, 0) = .ok y from h2, Res.ok_bind]
  have U : ∀ {k v w}, stepN E (guarded (stdFuns E other)) k v = .ok w → stepN E (stdFuns E other) k v = .ok w := stepN_under guarded_under
  have conv : ∀ {w}, Ends (fun m v => VM.run E (stdFuns E other) m v >>= fun vm => if vm.state ≠ .done then pure vm else
      callPop E (stdFuns E other) m init vm >>= fun vm => controlSteps E (stdFuns E other) m robot step rs vm) y.1 w →
      Ends (fun m => control E (stdFuns E other) m robot init step setup rs) vm w := by
    rintro w ⟨⟨N, a⟩, b⟩
    exact ⟨⟨N, fun m hm => (hctl m).trans (a m hm)⟩, fun m => (b m).imp (fun b => (hctl m).trans b) (fun b => (hctl m).trans b)⟩
  rcases runsDone h hP he hs hG hE (botCtx_ok hE) h3.top h3.rest hpt n with ⟨_, k, w, j1, j2⟩ | hrun
  · exact .inl (.inr ⟨y, h2, .inl ⟨k, w, U (Ctx.stepN_ok j1), j2⟩⟩)
  cases hx : Lang.exec ⟨E, T.strtof, Lang.stdLib⟩ n b s1 with
  | ok vs s2 =>
    rw [hx] at hrun
    rw [bind_eq hx]
    obtain ⟨k, v, q, k1, k2, k3⟩ := hrun
    cases Lang.exec_stat hb hx
    obtain ⟨ρ2, as, k4⟩ := k1
    have htop : s2.scope = .top := by
      have := exec_adds hx
      rw [h3.top] at this
      cases hsc : s2.scope with
      | top => rfl
      | inner => rw [hsc] at this; cases this
      | fn env => rw [hsc] at this; cases this
    have hid2 : Idle (botCtx T pre b o cs E other nf) s2 v := by
      have hst := k4.stack
      cases k4.reps
      have hsc := k4.sc
      rw [htop] at hsc
      exact ⟨htop, hsc, k4.rest.trans h3.rest, hst.trans h3.stack, rfl, ⟨ρ2, k4.core⟩, q, k4.pc, k3⟩
    have hrunE : Ends (VM.run E (stdFuns E other)) y.1 { v with state := .done } := Ends.of (run_stops hyr (U k2) (by simp)) run_either
    have seqE : ∀ {w}, Ends (fun m v => callPop E (stdFuns E other) m init v >>= fun vm => controlSteps E (stdFuns E other) m robot step rs vm) { v with state := .done } w →
        Ends (fun m => control E (stdFuns E other) m robot init step setup rs) vm w := by
      intro w hw
      refine conv (hrunE.seq (b := fun m vm => if vm.state ≠ .done then pure vm else
        callPop E (stdFuns E other) m init vm >>= fun vm => controlSteps E (stdFuns E other) m robot step rs vm) ?_)
      obtain ⟨⟨N, a⟩, b⟩ := hw
      refine ⟨⟨N, fun m hm => ?_⟩, fun m => ?_⟩
      · show (if ({ v with state := .done } : VM).state ≠ .done then _ else _) = _
        rw [if_neg (by simp)]
        exact a m hm
      · show (if ({ v with state := .done } : VM).state ≠ .done then _ else _) = _ ∨ (if ({ v with state := .done } : VM).state ≠ .done then _ else _) = _
        rw [if_neg (by simp)]
        exact b m
    have seqL : ∀ {m}, (callPop E (stdFuns E other) m init { v with state := .done } >>= fun vm => controlSteps E (stdFuns E other) m robot step rs vm) = .hang →
        control E (stdFuns E other) m robot init step setup rs vm = .hang := by
      intro m hm
      rw [hctl m]
      refine hrunE.late (b := fun m vm => if vm.state ≠ .done then pure vm else
        callPop E (stdFuns E other) m init vm >>= fun vm => controlSteps E (stdFuns E other) m robot step rs vm) ?_
      show (if ({ v with state := .done } : VM).state ≠ .done then _ else _) = _
      rw [if_neg (by simp)]
      exact hm
    obtain ⟨⟨N, hN⟩, _⟩ := id hrunE
    rcases call_sim g (guarded_under (F := stdFuns E other)) hi0 (.inr rfl) hid2 n with hcr | key
    · exact .inl (.inr ⟨y, h2, .inr ⟨N, _, hN N (le_refl _), rfl, .inl hcr⟩⟩)
    cases ha : Lang.callGlobal ⟨E, T.strtof, Lang.stdLib⟩ n init s2 with
    | ok u s3 =>
      rw [show Lang.callGlobal (botCtx T pre b o cs E other nf).host n init s2 = _ from ha] at key
      rw [bind_eq ha]
      obtain ⟨w, j1, j2⟩ := key
      rcases rounds_sim g (guarded_under (F := stdFuns E other)) hi1 hrob n (fun cs hcs c hc => able (hr cs hcs c hc)) j2 with hcr | key2
      · obtain ⟨⟨M, hM⟩, _⟩ := j1
        exact .inl (.inr ⟨y, h2, .inr ⟨N, _, hN N (le_refl _), rfl, .inr ⟨M, w, hM M (le_refl _), hcr⟩⟩⟩)
      refine .inr ?_
      cases hb2 : Lang.rounds ⟨E, T.strtof, Lang.stdLib⟩ n robot nf step rs s3 with
      | ok u2 s4 =>
        rw [show Lang.rounds (botCtx T pre b o cs E other nf).host n robot (botCtx T pre b o cs E other nf).nfuns step rs s3 = _ from hb2] at key2
        obtain ⟨w2, j3, j4⟩ := key2
        exact ⟨nf, w2, seqE (j1.seq j3), j4⟩
      | ret u2 s4 =>
        rw [show Lang.rounds (botCtx T pre b o cs E other nf).host n robot (botCtx T pre b o cs E other nf).nfuns step rs s3 = _ from hb2] at key2
        exact key2
      | err e =>
        rw [show Lang.rounds (botCtx T pre b o cs E other nf).host n robot (botCtx T pre b o cs E other nf).nfuns step rs s3 = _ from hb2] at key2
        obtain ⟨w2, j3, j4⟩ := key2
        exact ⟨w2, seqE (j1.seq j3), j4⟩
      | odd => trivial
      | time =>
        rw [show Lang.rounds (botCtx T pre b o cs E other nf).host n robot (botCtx T pre b o cs E other nf).nfuns step rs s3 = _ from hb2] at key2
        exact fun m hm => seqL (j1.late (b := fun m => controlSteps E (stdFuns E other) m robot step rs) (key2 m hm))
    | ret u s3 =>
      rw [show Lang.callGlobal (botCtx T pre b o cs E other nf).host n init s2 = _ from ha] at key
      exact key.elim
    | err e =>
      rw [show Lang.callGlobal (botCtx T pre b o cs E other nf).host n init s2 = _ from ha] at key
      rw [bindL_err ha]
      obtain ⟨w, j1, j2, j3⟩ := key
      have hn : w.state ≠ .ready := by rw [j2]; simp
      exact .inr ⟨w, seqE (j1.seq ⟨⟨0, fun _ _ => controlSteps_stay hn rs⟩, fun _ => .inl (controlSteps_stay hn rs)⟩), j2, j3⟩
    | odd =>
      rw [bind_odd ha]
      exact .inr trivial
    | time =>
      rw [show Lang.callGlobal (botCtx T pre b o cs E other nf).host n init s2 = _ from ha] at key
      rw [bindL_time ha]
      refine .inr fun m hm => seqL ?_
      rw [show callPop E (stdFuns E other) m init { v with state := .done } = .hang from key m hm]
      rfl
  | ret vs s2 => rw [hx] at hrun; exact hrun.elim
  | err e =>
    rw [hx] at hrun
    rw [bindL_err hx]
    obtain ⟨k, w, k1, k2, k3⟩ := hrun
    have hrunE : Ends (VM.run E (stdFuns E other)) y.1 w := Ends.of (run_stops hyr (U k1) (by rw [k2]; simp)) run_either
    refine .inr ⟨w, conv (hrunE.seq (b := fun m vm => if vm.state ≠ .done then pure vm else
      callPop E (stdFuns E other) m init vm >>= fun vm => controlSteps E (stdFuns E other) m robot step rs vm) ?_), k2, k3⟩
    have : ∀ m, (if w.state ≠ .done then pure w else callPop E (stdFuns E other) m init w >>= fun vm => controlSteps E (stdFuns E other) m robot step rs vm) = Res.ok w := by
      intro m
      rw [if_pos (by rw [k2]; simp)]
      rfl
    exact ⟨⟨0, fun m _ => this m⟩, fun m => .inl (this m)⟩
  | odd =>
    rw [bind_odd hx]
    exact .inr trivial
  | time =>
    rw [hx] at hrun
    rw [bindL_time hx]
    obtain ⟨k, w, k1, k2, k3⟩ := hrun
    refine .inr fun m hm => ?_
    rw [hctl m, run_goes (U k2) k3 m (by omega)]
    rfl

end Buzz.Link
