import Verif.SimEval

/-
Compiled code follows the meaning of programs: statements and functions.
-/
namespace Buzz.Sim

open Buzz.Msg Buzz.Heap Buzz.Props Buzz.VM
open Buzz.Lang (Ast Thing Scope Shape St Host decls eval one noValue)
open Buzz.Parser (Ln Sym Syms lookup stringAdd)
open Buzz.Comp (CS EC Mode Sub Loc Tabs BaseOk comp bodyC binOp unOp nargs keyC symOf known isLocal loadOps comp_grows comp_tabs sub_add get_add sub_known tabs_known tabs_addGlobal
  stacks_key grows_key addGlobal addLocal)

section
variable {K : Ctx} {n : Nat} {R : Obj → St → VM → Prop} {α β : Type}

/-! ### Outcomes -/

theorem Sim.of_ret {x : Lang.Ev α} {s s' : St} {v : Obj} {vm : VM} {Q : α → St → VM → Prop} (e : x s = .ret v s') (h : ∃ k vm', K.stepN k vm = .ok vm' ∧ R v s' vm') :
    Sim K n R x s vm Q := by
  refine .inr ?_
  rw [e]
  exact h

/-- Fewer steps are required. -/
theorem Sim.weaken {x : Lang.Ev α} {s : St} {vm : VM} {Q : α → St → VM → Prop} {j : Nat} (h : Sim K n R x s vm Q) (hj : j ≤ n) : Sim K j R x s vm Q := by
  rcases h with h | h
  · exact .inl h
  refine .inr ?_
  cases hx : x s with
  | time =>
    rw [hx] at h
    obtain ⟨k, vm', h1, h2⟩ := h
    exact ⟨k, vm', hj.trans h1, h2⟩
  | _ => rw [hx] at h; exact h

/-- A step counts. -/
theorem Sim.tick {x : Lang.Ev α} {s : St} {vm vm1 : VM} {Q : α → St → VM → Prop} (h : K.step vm = .ok vm1) (q : Sim K n R x s vm1 Q) : Sim K (n + 1) R x s vm Q := by
  rcases q with q | q
  · exact .inl (q.after (stepN_one h))
  refine .inr ?_
  cases hx : x s with
  | time =>
    rw [hx] at q
    obtain ⟨k, vm', h1, h2, h3⟩ := q
    exact ⟨1 + k, vm', by omega, stepN_add (stepN_one h) h2, h3⟩
  | odd => trivial
  | _ =>
    rw [hx] at q
    obtain ⟨k, vm', h1, h2⟩ := q
    exact ⟨1 + k, vm', stepN_add (stepN_one h) h1, h2⟩

/-- The same evaluation. -/
theorem Sim.congr {x y : Lang.Ev α} {s : St} {vm : VM} {Q : α → St → VM → Prop} (e : x s = y s) (h : Sim K n R y s vm Q) : Sim K n R x s vm Q := by
  unfold Sim at *
  rw [e]
  exact h

/-- A loop whose head has the invariant `I`. -/
theorem sim_loop {c : Lang.Ev Obj} {b : Lang.Ev Unit} {I Q : St → VM → Prop} {T : St → VM → Prop} (hI : ∀ s vm, I s vm → vm.state = .ready)
    (hc : ∀ s vm, I s vm → Sim K n R c s vm (fun v s' vm' => if truth v then T s' vm' else ∃ k vm'', K.stepN k vm' = .ok vm'' ∧ Q s' vm''))
    (hb : ∀ s vm, T s vm → ∃ vm1, K.step vm = .ok vm1 ∧ Sim K n R b s vm1 (fun _ s' vm' => ∃ k vm'', K.stepN k vm' = .ok vm'' ∧ I s' vm'')) :
    ∀ (j : Nat), j ≤ n → ∀ s vm, I s vm → Sim K j R (Lang.loop c b j) s vm (fun vs s' vm' => vs = [] ∧ Q s' vm') := by
  intro j
  induction j with
  | zero =>
    intro _ s vm h
    exact .inr ⟨0, vm, le_rfl, rfl, hI s vm h⟩
  | succ j ih =>
    intro hj s vm h
    refine Sim.bind ((hc s vm h).weaken hj) fun v s1 vm1 _ k => ?_
    by_cases hv : truth v = true
    · rw [if_pos hv] at k
      show Sim K (j + 1) R (if truth v then b >>= fun _ => Lang.loop c b j else pure []) s1 vm1 _
      rw [if_pos hv]
      obtain ⟨vm2, e2, k2⟩ := hb s1 vm1 k
      refine Sim.tick e2 (Sim.bind (k2.weaken (by omega)) ?_)
      rintro _ s3 vm3 _ ⟨k, vm4, e4, k4⟩
      exact Sim.after e4 (ih (by omega) s3 vm4 k4)
    · rw [if_neg hv] at k
      show Sim K (j + 1) R (if truth v then b >>= fun _ => Lang.loop c b j else pure []) s1 vm1 _
      rw [if_neg hv]
      obtain ⟨k, vm2, e2, k2⟩ := k
      exact Sim.after e2 (Sim.pure ⟨rfl, k2⟩)

end

section
variable {K : Ctx} (g : Good K) {n : Nat} {run : Ast → Lang.Ev (List Obj)}

/-- Another scope with the same variables. -/
theorem pt_scope {vm0 : VM} {ρ0 : List Nat} {p : Nat} {ws : List Obj} {s : St} {vm : VM} {sc : Scope} (h : Pt K vm0 ρ0 p ws s vm) (hs : ∀ ρ, Sc K ρ vm s.scope → Sc K ρ vm sc) :
    Pt K vm0 ρ0 p ws { s with scope := sc } vm := by
  obtain ⟨ρ, as, h⟩ := h
  exact ⟨ρ, as, { core := ⟨h.core.inv, h.core.ready, h.core.base, h.core.strs, h.core.len, h.core.nodup, h.core.low, h.core.things, h.core.globals⟩, sc := hs ρ h.sc, pc := h.pc
                  stack := h.stack, reps := h.reps, rest := h.rest, tail := h.tail, depth := h.depth, evo := h.evo, pre := h.pre
                  floor := h.floor }⟩

theorem pt_ready {vm0 : VM} {ρ0 : List Nat} {p : Nat} {ws : List Obj} {s : St} {vm : VM} (h : Pt K vm0 ρ0 p ws s vm) : vm.state = .ready := by
  obtain ⟨ρ, as, h⟩ := h
  exact h.core.ready

theorem pt_env {vm0 : VM} {ρ0 : List Nat} {p : Nat} {ws : List Obj} {s : St} {vm : VM} {env : List (Bytes × Obj)} (h : Pt K vm0 ρ0 p ws s vm) (hs : s.scope = .fn env) :
    0 < env.length ∧ env.length < Lang.limit := by
  obtain ⟨ρ, as, h⟩ := h
  have := h.sc
  rw [hs] at this
  exact this.1

include g

/-! ### Variables -/

theorem sim_setGlobal {R : Obj → St → VM → Prop} {x : Bytes} {v : Obj} {i p q : Nat} {ws : List Obj} {s : St} {vm vm0 : VM} {ρ0 : List Nat} (h : Pt K vm0 ρ0 p (v :: .str 0 x :: ws) s vm)
    (l : LnAt K p (.op 29) q) (hx : FMap.get K.strings x = some i) (hq : q < K.code.length) (hs : x ∉ Shape.names s.scope.shape) :
    Sim K n R (Lang.setVar x v) s vm (fun _ s' vm' => Pt K vm0 ρ0 q ws s' vm') := by
  obtain ⟨vm1, e1, p1⟩ := pt_gstore g h l hx hq
  refine Sim.of_ok (a := ()) (s' := withGlobal x v s) ?_ ⟨1, vm1, stepN_one e1, p1⟩
  unfold Lang.setVar
  cases hsc : s.scope with
  | top => rfl
  | inner => rfl
  | fn env =>
    rw [hsc] at hs
    simp only
    rw [valueOf_out hs]
    rfl

theorem sim_setLocal {R : Obj → St → VM → Prop} {x : Bytes} {v : Obj} {i p q : Nat} {ws : List Obj} {s : St} {vm vm0 : VM} {ρ0 : List Nat} {env : List (Bytes × Obj)}
    (h : Pt K vm0 ρ0 p (v :: ws) s vm) (l : LnAt K p (.num 42 i) q) (hs : s.scope = .fn env) (hn : (env.map (·.1)).Nodup) (hx : (env.map (·.1))[i]? = some x) (hq : q < K.code.length) :
    Sim K n R (Lang.setVar x v) s vm (fun _ s' vm' => Pt K vm0 ρ0 q ws s' vm') := by
  have hi : i < env.length := by
    by_contra hc
    rw [List.getElem?_eq_none (by rw [List.length_map]; omega)] at hx
    cases hx
  have hx' : ∃ w, env[i]? = some (x, w) := by
    rw [List.getElem?_map, List.getElem?_eq_getElem hi] at hx
    rw [List.getElem?_eq_getElem hi]
    have hx : some (env[i]).1 = some x := hx
    rw [Option.some.injEq] at hx
    exact ⟨(env[i]).2, by rw [← hx]⟩
  obtain ⟨w, hw⟩ := hx'
  obtain ⟨vm1, e1, p1⟩ := pt_lstore g (x := x) h l hs (by omega) (.inl hi) hq
  refine Sim.of_ok (a := ()) (s' := { s with scope := .fn (storeEnv env i x v) }) ?_ ⟨1, vm1, stepN_one e1, p1⟩
  unfold Lang.setVar
  rw [hs]
  simp only
  rw [valueOf_in hn hw, assignTo_set hn hw]
  unfold storeEnv
  rw [if_pos hi]
  rfl

theorem sim_declare {R : Obj → St → VM → Prop} {x : Bytes} {c : CS} {p q : Nat} {ws : List Obj} {s : St} {vm vm0 : VM} {ρ0 : List Nat} {env : List (Bytes × Obj)} (hs : s.scope = .fn env)
    (ht : Tabs c s.scope.shape) (hcode : CodeAt K p [.op 2, .num 42 (c.top.length : Int)] q) (hq : q < K.code.length) (h : Pt K vm0 ρ0 p ws s vm) :
    Sim K n R (Lang.declare x .nil) s vm (fun _ s' vm' => Pt K vm0 ρ0 q ws s' vm' ∧ s'.scope = .fn (env ++ [(x, .nil)])) := by
  have hl : Loc c.symstack (env.map (·.1)) c.strings := by rw [hs] at ht; exact ht
  have hlen : c.top.length = env.length := by rw [hl.top, Comp.table_length, List.length_map]
  rw [hlen] at hcode
  obtain ⟨r1, j1, j2⟩ := hcode
  replace j2 := codeAt_one.mp j2
  have l2 := j2.le
  by_cases hd : (Lang.valueOf x env).isSome ∨ Lang.limit ≤ env.length + 1
  · refine Sim.of_odd ?_
    unfold Lang.declare
    rw [hs]
    simp only [if_pos hd]
  · obtain ⟨vm1, e1, p1⟩ := pt_nil g h j1 (by omega)
    obtain ⟨vm2, e2, p2⟩ := pt_lstore g (x := x) p1 j2 hs le_rfl (.inr (by omega)) hq
    refine Sim.of_ok (a := ()) (s' := { s with scope := .fn (storeEnv env env.length x .nil) }) ?_ ⟨1 + 1, vm2, stepN_add (stepN_one e1) (stepN_one e2), p2, ?_⟩
    · unfold Lang.declare
      rw [hs]
      simp only [if_neg hd]
      unfold storeEnv
      rw [if_neg (by omega)]
    · unfold storeEnv
      rw [if_neg (by omega)]

theorem val_decl {x : Bytes} : Val K n run (.decl x) := by
  intro c o p q ws s vm vm0 ρ0 h hat ht hp
  simp only [comp] at h
  by_cases hl : isLocal x c = true
  · rw [if_pos hl] at h
    cases h
  · rw [if_neg hl] at h
    simp only [eval]
    by_cases h1 : c.symstack.length = 1
    · rw [if_pos h1] at h
      cases h
      have hsh := Comp.tabs_top ht h1
      have hsc := Lang.shape_top hsh
      obtain ⟨r1, j1, r2, j2, j3⟩ := hat.code
      replace j3 := codeAt_one.mp j3
      have l3 := j3.le
      have l2 := j2.le
      have lt := hat.lt
      have hx := hat.sub _ _ (get_add c.strings x)
      obtain ⟨vm1, e1, p1⟩ := pt_str g hp j1 hx (by omega)
      obtain ⟨vm2, e2, p2⟩ := pt_nil g p1 j2 (by omega)
      obtain ⟨vm3, e3, p3⟩ := pt_gstore g p2 j3 hx lt
      refine Sim.step e1 (Sim.step e2 (Sim.step e3 ?_))
      refine Sim.bind (Q := fun _ s' vm' => Pt K vm0 ρ0 q ws s' vm') (Sim.of_ok (a := ()) (s' := withGlobal x .nil s) ?_ ⟨0, vm3, rfl, p3⟩) fun _ s' vm' _ k => Sim.pure k
      unfold Lang.declare
      rw [hsc]
      rfl
    · rw [if_neg h1] at h
      cases h
      cases hsc : s.scope with
      | top =>
        rw [hsc] at ht
        obtain ⟨b, hb, _⟩ := ht
        rw [hb] at h1
        exact absurd rfl h1
      | inner =>
        refine Sim.of_odd (bind_odd ?_)
        unfold Lang.declare
        rw [hsc]
      | fn env => exact Sim.bind (sim_declare g hsc ht hat.code hat.lt hp) fun _ s' vm' _ k => Sim.pure k.1

theorem val_init {x : Bytes} {e : Ast} (he : Val K n run e) : Val K n run (.init x e) := by
  intro c o p q ws s vm vm0 ρ0 h hat ht hp
  simp only [comp] at h
  by_cases hl : isLocal x c = true
  · rw [if_pos hl] at h
    cases h
  · rw [if_neg hl] at h
    by_cases h1 : c.symstack.length = 1
    · rw [if_pos h1] at h
      have hsh := Comp.tabs_top ht h1
      have hsc := Lang.shape_top hsh
      obtain ⟨r1, r2, k1, k2, rfl⟩ := Comp.seq_some h
      obtain ⟨r3, r4, k3, k4, rfl⟩ := Comp.seq_some k1
      cases k2
      cases k3
      have hat' : At K ⟨([.num 37 (stringAdd c.strings x).2] ++ r4.code) ++ [.op 29], r4.news, r4.cs⟩ p q := by simpa using hat
      obtain ⟨m2, j1, j3⟩ := codeAt_append.mp hat'.code
      obtain ⟨m1, j1, j2⟩ := codeAt_append.mp j1
      replace j1 := codeAt_one.mp j1
      replace j3 := codeAt_one.mp j3
      have l3 := j3.le
      have l2 := j2.le
      have lt := hat.lt
      have hx : FMap.get K.strings x = some (stringAdd c.strings x).2 := hat.sub _ _ (comp_grows e .val _ _ k4 _ _ (get_add c.strings x))
      obtain ⟨vm1, e1, p1⟩ := pt_str g hp j1 hx (by omega)
      refine Sim.congr (y := do
        let v ← one e (eval K.host n run e false)
        Lang.setVar x v
        pure []) (by simp only [eval]; rw [hsc]) ?_
      refine Sim.step e1 ?_
      refine Sim.bind (use_one he k4 ⟨hat'.sub, hat'.placed, j2, by omega⟩ (tabs_addGlobal ht) p1) ?_
      rintro v s1 vm2 _ ⟨p2, _, hs2⟩
      refine Sim.bind (sim_setGlobal g p2 j3 hx lt ?_) fun _ s' vm' _ k => Sim.pure k
      rw [hs2, hsh]
      simp [Shape.names]
    · rw [if_neg h1] at h
      obtain ⟨r1, r2, k1, k2, rfl⟩ := Comp.seq_some h
      obtain ⟨r3, r4, k3, k4, rfl⟩ := Comp.seq_some k1
      cases k2
      cases k3
      have hat' : At K ⟨([.op 2, .num 42 (c.top.length : Int)] ++ r4.code) ++ [.num 42 (c.top.length : Int)], r4.news, r4.cs⟩ p q := by simpa using hat
      obtain ⟨m2, j1, j3⟩ := codeAt_append.mp hat'.code
      obtain ⟨m1, j1, j2⟩ := codeAt_append.mp j1
      replace j3 := codeAt_one.mp j3
      have l3 := j3.le
      have l2 := j2.le
      have lt := hat.lt
      have hne : s.scope ≠ .top := by
        intro hsc
        rw [hsc] at ht
        obtain ⟨b, hb, _⟩ := ht
        rw [hb] at h1
        exact absurd rfl h1
      refine Sim.congr (y := do
        Lang.declare x .nil
        let v ← one e (eval K.host n run e false)
        Lang.setVar x v
        pure []) ?_ ?_
      · simp only [eval]
      · cases hsc : s.scope with
        | top => exact absurd hsc hne
        | inner =>
          refine Sim.of_odd (bind_odd ?_)
          unfold Lang.declare
          rw [hsc]
        | fn env =>
          refine Sim.bind (sim_declare g hsc ht j1 (by omega) hp) ?_
          rintro _ s1 vm1 _ ⟨p1, hs1⟩
          have hsh1 : s1.scope.shape = s.scope.shape.ext [x] := by
            rw [hs1, hsc]
            simp [Lang.Scope.shape, Shape.ext]
          have ht1 : Tabs (addLocal x c) s1.scope.shape := by
            rw [hsh1]
            exact Comp.tabbed_addLocal ht h1 (by simpa using hl)
          refine Sim.bind (use_one he k4 ⟨hat'.sub, hat'.placed, j2, by omega⟩ ht1 p1) ?_
          rintro v s2 vm2 _ ⟨p2, t2, hs2⟩
          have hloc : Loc c.symstack (env.map (·.1)) c.strings := by rw [hsc] at ht; exact ht
          have hlen : c.top.length = env.length := by rw [hloc.top, Comp.table_length, List.length_map]
          rw [hlen] at j3
          rw [hs1] at hs2
          cases hsc2 : s2.scope with
          | top => rw [hsc2] at hs2; cases hs2
          | inner => rw [hsc2] at hs2; cases hs2
          | fn env2 =>
            rw [hsc2] at hs2 t2
            have hnames : env2.map (·.1) = env.map (·.1) ++ [x] := by
              simpa [Lang.Scope.shape] using hs2
            refine Sim.bind (sim_setLocal g p2 j3 hsc2 (Loc.nodup t2) ?_ lt) fun _ s' vm' _ k => Sim.pure k
            rw [hnames, List.getElem?_append_right (by simp)]
            simp

/-! ### Assignments -/

theorem val_assign {r e : Ast} (hr : Lang.isRef r = true → Lval K n run r) (he : Val K n run e) : Val K n run (.assign r e) := by
  intro c o p q ws s vm vm0 ρ0 h hat ht hp
  obtain ⟨x, y, h1, h2, rfl⟩ := Comp.assign_some h
  obtain ⟨m2, j1, j3⟩ := codeAt_append.mp hat.code
  obtain ⟨m1, j1, j2⟩ := codeAt_append.mp j1
  have l3 := j3.le
  have l2 := j2.le
  have lt := hat.lt
  have hgr := comp_grows e .val _ _ h2
  simp only [eval]
  by_cases hw : Lang.isRef r = true
  · rw [if_pos hw]
    refine Sim.bind ((hr hw h1 ⟨hgr.trans hat.sub, hat.placed.left, j1, by omega⟩ ht hp).mono (Q' := fun vs s' vm' => Pt K vm0 ρ0 m1 (places r c vs ++ ws) s' vm' ∧
      s'.scope.shape = s.scope.shape.ext (decls r)) fun vs s' vm' e k => ⟨k, Lang.eval_adds _ _ _ _ _ _ _ _ e⟩) ?_
    rintro vs s1 vm1 e1 ⟨p1, hs1⟩
    have t1 : Tabs x.cs s1.scope.shape := by
      rw [hs1]
      exact comp_tabs r .lval _ _ _ h1 ht
    refine Sim.bind (use_one he h2 ⟨hat.sub, hat.placed.right, j2, by omega⟩ t1 p1) ?_
    rintro v s2 vm2 _ ⟨p2, t2, hs2⟩
    refine Sim.bind (Q := fun _ s' vm' => Pt K vm0 ρ0 q ws s' vm') ?_ fun _ s' vm' _ k => Sim.pure k
    cases r with
    | id z =>
      have hs2 : s2.scope.shape = s.scope.shape := by
        rw [hs2, hs1]
        exact Shape.ext_nil _
      show Sim K n (RetOf K vm0 ρ0) (Lang.setVar z v) s2 vm2 _
      have p2 : Pt K vm0 ρ0 m2 (v :: ((if (symOf z c).global then [.str 0 z] else []) ++ ws)) s2 vm2 := p2
      have j3 : CodeAt K m2 (if (symOf z c).global then [.op 29] else [.num 42 (symOf z c).pos]) q := j3
      by_cases hz : z ∈ Shape.names s.scope.shape
      · cases hsc : s.scope with
        | top => rw [hsc] at hz; simp [Shape.names, Lang.Scope.shape] at hz
        | inner => rw [hsc] at hz; simp [Shape.names, Lang.Scope.shape] at hz
        | fn env =>
          rw [hsc] at hz hs2
          have hloc : Loc c.symstack (env.map (·.1)) c.strings := by rw [hsc] at ht; exact ht
          obtain ⟨i, hi⟩ := List.mem_iff_getElem?.mp hz
          have hi : (env.map (·.1))[i]? = some z := hi
          rw [(sym_in hloc hi).2] at p2 j3
          cases hsc2 : s2.scope with
          | top => rw [hsc2] at hs2; cases hs2
          | inner => rw [hsc2] at hs2; cases hs2
          | fn env2 =>
            rw [hsc2] at hs2
            have hnames : env2.map (·.1) = env.map (·.1) := by simpa [Lang.Scope.shape] using hs2
            exact sim_setLocal g p2 (codeAt_one.mp j3) hsc2 (by rw [hnames]; exact hloc.nodup) (by rw [hnames]; exact hi) lt
      · obtain ⟨g1, g2⟩ := sym_out ht hz
        rw [g1] at p2 j3
        cases h1
        exact sim_setGlobal g p2 (codeAt_one.mp j3) (hat.sub _ _ (hgr _ _ g2)) lt (by rw [hs2]; exact hz)
    | field r f =>
      match vs with
      | [] => exact Sim.of_odd rfl
      | [_] => exact Sim.of_odd rfl
      | [t, k] => exact pt_tput g p2 (codeAt_one.mp j3) lt
      | _ :: _ :: _ :: _ => exact Sim.of_odd rfl
    | index r f =>
      match vs with
      | [] => exact Sim.of_odd rfl
      | [_] => exact Sim.of_odd rfl
      | [t, k] => exact pt_tput g p2 (codeAt_one.mp j3) lt
      | _ :: _ :: _ :: _ => exact Sim.of_odd rfl
    | _ => cases hw
  · rw [if_neg hw]
    exact Sim.of_odd rfl

/-! ### Plain statements -/

theorem val_run {r : Ast} (hr : Val K n run r) : Val K n run (.run r) := by
  intro c o p q ws s vm vm0 ρ0 h hat ht hp
  obtain ⟨x, y, h1, h2, rfl⟩ := Comp.seq_some h
  cases h2
  have hat' : At K ⟨x.code ++ [.op 4], x.news, x.cs⟩ p q := by simpa using hat
  obtain ⟨m1, j1, j2⟩ := codeAt_append.mp hat'.code
  replace j2 := codeAt_one.mp j2
  have l2 := j2.le
  have lt := hat.lt
  simp only [eval]
  refine Sim.bind (use_one hr h1 ⟨hat'.sub, hat'.placed, j1, by omega⟩ ht hp) fun v s1 vm1 _ ⟨p1, _, _⟩ => ?_
  obtain ⟨vm2, e2, p2⟩ := pt_pop g p1 j2 lt
  exact Sim.step e2 (Sim.pure p2)

theorem val_skip : Val K n run .skip := by
  intro c o p q ws s vm vm0 ρ0 h hat ht hp
  cases h
  obtain rfl : q = p := hat.code
  exact Sim.pure hp

theorem val_func {f : Bytes} {ps : List Bytes} {b : Ast} : Val K n run (.func f ps b) := by
  intro c o p q ws s vm vm0 ρ0 h hat ht hp
  obtain ⟨_, y, _, rfl⟩ := Comp.func_some h
  obtain rfl : q = p := hat.code
  exact Sim.pure hp

theorem val_seq {a b : Ast} (ha : Val K n run a) (hb : Val K n run b) : Val K n run (.seq a b) := by
  intro c o p q ws s vm vm0 ρ0 h hat ht hp
  obtain ⟨x, y, h1, h2, rfl⟩ := Comp.seq_some h
  obtain ⟨m1, j1, j2⟩ := codeAt_append.mp hat.code
  have l2 := j2.le
  have lt := hat.lt
  simp only [eval]
  refine Sim.bind (use_none ha h1 ⟨(comp_grows b .val _ _ h2).trans hat.sub, hat.placed.left, j1, by omega⟩ ht hp) fun _ s1 vm1 _ ⟨p1, t1, _⟩ => ?_
  exact hb h2 ⟨hat.sub, hat.placed.right, j2, lt⟩ t1 p1

theorem val_ret0 : Val K n run .ret0 := by
  intro c o p q ws s vm vm0 ρ0 h hat ht hp
  cases h
  cases hsc : s.scope with
  | fn env =>
    obtain ⟨vm1, e1, r1⟩ := pt_ret0 g hp (codeAt_one.mp hat.code) hsc
    refine Sim.of_ret (v := .nil) (s' := s) ?_ ⟨1, vm1, stepN_one e1, r1⟩
    simp only [eval]
    unfold Lang.leave
    rw [hsc]
  | _ =>
    refine Sim.of_odd ?_
    simp only [eval]
    unfold Lang.leave
    rw [hsc]

theorem val_ret {e : Ast} (he : Val K n run e) : Val K n run (.ret e) := by
  intro c o p q ws s vm vm0 ρ0 h hat ht hp
  obtain ⟨x, y, h1, h2, rfl⟩ := Comp.seq_some h
  cases h2
  have hat' : At K ⟨x.code ++ [.op 6], x.news, x.cs⟩ p q := by simpa using hat
  obtain ⟨m1, j1, j2⟩ := codeAt_append.mp hat'.code
  replace j2 := codeAt_one.mp j2
  have l2 := j2.le
  have lt := hat.lt
  simp only [eval]
  refine Sim.bind (use_one he h1 ⟨hat'.sub, hat'.placed, j1, by omega⟩ ht hp) fun v s1 vm1 _ ⟨p1, _, _⟩ => ?_
  cases hsc : s1.scope with
  | fn env =>
    obtain ⟨vm2, e2, r2⟩ := pt_ret1 g p1 j2 hsc
    refine Sim.of_ret (v := v) (s' := s1) ?_ ⟨1, vm2, stepN_one e2, r2⟩
    unfold Lang.leave
    rw [hsc]
  | _ =>
    refine Sim.of_odd ?_
    unfold Lang.leave
    rw [hsc]

/-! ### Blocks -/

omit g in
theorem inner_nil {sc : Scope} {xs : List Bytes} (h : sc.shape = .inner xs) : sc = .inner ∧ xs = [] := by
  cases sc with
  | inner => cases h; exact ⟨rfl, rfl⟩
  | _ => cases h

theorem val_block {b : Ast} (hb : Val K n run b) : Val K n run (.block b) := by
  intro c o p q ws s vm vm0 ρ0 h hat ht hp
  have h : bodyC (comp b .val) { c with symstack := (if c.symstack.length = 1 then [] else c.symstack.headD []) :: c.symstack } = some o := h
  obtain ⟨tb, htb⟩ : ∃ tb, tb = (if c.symstack.length = 1 then [] else c.symstack.headD []) := ⟨_, rfl⟩
  rw [← htb] at h
  obtain ⟨y, h1, rfl⟩ := Comp.body_some h
  obtain ⟨m1, j1, j2⟩ := codeAt_append.mp hat.code
  have l2 := j2.le
  have lt := hat.lt
  have hat1 : At K y p m1 := ⟨hat.sub, hat.placed, j1, by omega⟩
  simp only [eval]
  refine Sim.bind (Q := fun _ s' vm' => Pt K vm0 ρ0 q ws s' vm') ?_ fun _ s' vm' _ k => Sim.pure k
  cases hsc : s.scope with
  | top =>
    rw [hsc] at ht
    obtain ⟨bs, e1, hbs⟩ := ht
    have hloc : Loc ([] :: c.symstack) [] c.strings := ⟨⟨[], bs, by rw [e1]; rfl, by simp, hbs⟩, List.nodup_nil⟩
    rw [if_pos (by rw [e1]; rfl)] at htb
    subst htb
    have hp' : Pt K vm0 ρ0 p ws { s with scope := .inner } vm := pt_scope hp fun ρ k => by rw [hsc] at k; exact k
    have := use_none hb h1 hat1 (s := { s with scope := .inner }) hloc hp'
    rcases this with this | this
    · exact .inl this
    refine .inr ?_
    have ex : Lang.inBlock (noValue (eval K.host n run b false)) s = match noValue (eval K.host n run b false) { s with scope := .inner } with
      | .ok _ s' => .ok () { s' with scope := .top }
      | r => r := by
      unfold Lang.inBlock
      rw [hsc]
      cases noValue (eval K.host n run b false) { s with scope := .inner } <;> rfl
    rw [ex]
    cases hx : noValue (eval K.host n run b false) { s with scope := .inner } with
    | ok u s' =>
      rw [hx] at this
      obtain ⟨k, vm', ek, p1, t1, hs1⟩ := this
      obtain ⟨hsc', _⟩ := inner_nil (show s'.scope.shape = .inner _ from hs1)
      rw [hsc'] at t1
      have hlen : y.cs.top.length = 0 := by rw [Loc.top t1]; rfl
      rw [hlen, if_neg (by simp)] at j2
      obtain rfl : q = m1 := j2
      exact ⟨k, vm', ek, pt_scope p1 fun ρ k => by rw [hsc'] at k; exact k⟩
    | _ => rw [hx] at this; exact this
  | inner =>
    rw [hsc] at ht
    have hloc : Loc c.symstack [] c.strings := ht
    rw [if_neg hloc.length] at htb
    subst htb
    have hcopy := Comp.loc_copy hloc
    refine Sim.congr (y := noValue (eval K.host n run b false)) (by unfold Lang.inBlock; rw [hsc]) ?_
    refine (use_none hb h1 hat1 (by rw [hsc]; exact hcopy) hp).mono ?_
    rintro _ s' vm' _ ⟨p1, t1, hs1⟩
    rw [hsc] at hs1
    obtain ⟨hsc', _⟩ := inner_nil (show s'.scope.shape = .inner _ from hs1)
    rw [hsc'] at t1
    have hlen : y.cs.top.length = 0 := by rw [Loc.top t1]; rfl
    rw [hlen, if_neg (by simp)] at j2
    obtain rfl : q = m1 := j2
    exact p1
  | fn env =>
    rw [hsc] at ht
    have hloc : Loc c.symstack (env.map (·.1)) c.strings := ht
    rw [if_neg hloc.length] at htb
    subst htb
    have hcopy := Comp.loc_copy hloc
    have := use_none hb h1 hat1 (by rw [hsc]; exact hcopy) hp
    rcases this with this | this
    · exact .inl this
    refine .inr ?_
    have ex : Lang.inBlock (noValue (eval K.host n run b false)) s = match noValue (eval K.host n run b false) s with
      | .ok _ s' =>
        match s'.scope with
        | .fn env' => .ok () { s' with scope := .fn (env'.take env.length) }
        | _ => .odd
      | r => r := by
      unfold Lang.inBlock
      rw [hsc]
      cases noValue (eval K.host n run b false) s <;> rfl
    rw [ex]
    cases hx : noValue (eval K.host n run b false) s with
    | ok u s' =>
      rw [hx] at this
      obtain ⟨k, vm', ek, p1, t1, hs1⟩ := this
      rw [hsc] at hs1
      cases hsc' : s'.scope with
      | top => rw [hsc'] at hs1; cases hs1
      | inner => rw [hsc'] at hs1; cases hs1
      | fn env' =>
        simp only [hsc']
        rw [hsc'] at hs1 t1
        have hnames : env'.map (·.1) = env.map (·.1) ++ decls b := by simpa [Lang.Scope.shape, Shape.ext] using hs1
        have hlen : env'.length = env.length + (decls b).length := by
          have := congrArg List.length hnames
          simpa using this
        have hc1 : y.cs.top.length = env'.length := by rw [Loc.top t1, Comp.table_length, List.length_map]
        have hc2 : (({ c with symstack := c.symstack.headD [] :: c.symstack } : CS)).top.length = env.length := by
          rw [Loc.top (c := { c with symstack := c.symstack.headD [] :: c.symstack }) hcopy, Comp.table_length, List.length_map]
        rw [hc1, hc2, show env'.length - env.length = (decls b).length by omega] at j2
        have hpos := (pt_env hp hsc).1
        by_cases hz : (decls b).length = 0
        · rw [if_neg (by simpa using hz)] at j2
          obtain rfl : q = m1 := j2
          refine ⟨k, vm', ek, pt_scope p1 fun ρ k => ?_⟩
          rw [hsc'] at k
          rw [List.take_of_length_le (by omega)]
          exact k
        · rw [if_pos hz] at j2
          obtain ⟨vm2, e2, p2⟩ := pt_lremove g p1 (codeAt_one.mp j2) hsc' (by omega) lt
          refine ⟨k + 1, vm2, stepN_add ek (stepN_one e2), ?_⟩
          rw [show env'.length - (decls b).length = env.length by omega] at p2
          exact p2
    | _ => rw [hx] at this; exact this

/-! ### Conditions and loops -/

omit g in
/-- Variables are added at most when they are global. -/
theorem guard_ext {ds : List Bytes} {sh : Shape} (h : sh = .top ∨ ds = []) : sh.ext ds = sh := by
  rcases h with rfl | rfl
  · rfl
  · exact Shape.ext_nil _

omit g in
theorem sim_guarded {R : Obj → St → VM → Prop} {ds : List Bytes} {x : Lang.Ev (List Obj)} {s : St} {vm : VM} {Q : List Obj → St → VM → Prop}
    (h : s.scope.shape = .top ∨ ds = [] → Sim K n R x s vm Q) : Sim K n R (Lang.guarded ds x) s vm Q := by
  by_cases hd : ds = []
  · refine Sim.congr ?_ (h (.inr hd))
    unfold Lang.guarded
    cases s.scope <;> simp [hd]
  · cases hsc : s.scope with
    | top =>
      refine Sim.congr ?_ (h (.inl (by rw [hsc]; rfl)))
      unfold Lang.guarded
      rw [hsc]
    | _ =>
      refine Sim.of_odd ?_
      unfold Lang.guarded
      rw [hsc]
      simp only [if_neg hd]

theorem val_ifs {c a : Ast} (hc : Val K n run c) (ha : Val K n run a) : Val K n run (.ifs c a) := by
  intro cs o p q ws s vm vm0 ρ0 h hat ht hp
  obtain ⟨x, y, h1, h2, rfl⟩ := Comp.ifs_some h
  obtain ⟨m3, i3, j4⟩ := codeAt_append.mp hat.code
  obtain ⟨m2, i2, j3⟩ := codeAt_append.mp i3
  obtain ⟨m1, j1, j2⟩ := codeAt_append.mp i2
  replace j2 := codeAt_one.mp j2
  obtain ⟨hpos, rfl⟩ := codeAt_one.mp j4
  have l3 := j3.le
  have l2 := j2.le
  have lt := hat.lt
  simp only [eval]
  refine Sim.bind (use_one hc h1 ⟨(comp_grows a .val _ _ h2).trans hat.sub, hat.placed.left, j1, by omega⟩ ht hp) ?_
  rintro v s1 vm1 _ ⟨p1, t1, hs1⟩
  obtain ⟨vm2, e2, p2⟩ := pt_branch g p1 j2 (op := .jumpz) (b := false) rfl (fun _ => rfl) (by omega)
  refine Sim.step e2 (sim_guarded fun _ => ?_)
  by_cases hv : truth v = true
  · rw [if_neg (by rw [hv]; simp)] at p2
    rw [if_pos hv]
    exact ha h2 ⟨hat.sub, hat.placed.right, j3, lt⟩ t1 p2
  · rw [if_pos (by simpa using hv), hpos] at p2
    rw [if_neg hv]
    exact Sim.pure p2

theorem val_ite {c a b : Ast} (hc : Val K n run c) (ha : Val K n run a) (hb : Val K n run b) : Val K n run (.ite c a b) := by
  intro cs o p q ws s vm vm0 ρ0 h hat ht hp
  obtain ⟨x, y, z, h1, h2, h3, rfl⟩ := Comp.ite_some h
  obtain ⟨m5, i5, j6⟩ := codeAt_append.mp hat.code
  obtain ⟨m4, i4, j5⟩ := codeAt_append.mp i5
  obtain ⟨m3, i3, j4⟩ := codeAt_append.mp i4
  obtain ⟨m2, i2, j3⟩ := codeAt_append.mp i3
  obtain ⟨m1, j1, j2⟩ := codeAt_append.mp i2
  replace j2 := codeAt_one.mp j2
  obtain ⟨hpos2, rfl⟩ := codeAt_one.mp j6
  obtain ⟨m6, j4, j7⟩ := j4
  obtain ⟨hpos, rfl⟩ := codeAt_one.mp j7
  have l5 := j5.le
  have l4 := j4.le
  have l3 := j3.le
  have l2 := j2.le
  have lt := hat.lt
  have hg3 := comp_grows b .val _ _ h3
  have hg2 := comp_grows a .val _ _ h2
  simp only [eval]
  refine Sim.bind (use_one hc h1 ⟨(hg2.trans hg3).trans hat.sub, hat.placed.left.left, j1, by omega⟩ ht hp) ?_
  rintro v s1 vm1 _ ⟨p1, t1, hs1⟩
  obtain ⟨vm2, e2, p2⟩ := pt_branch g p1 j2 (op := .jumpz) (b := false) rfl (fun _ => rfl) (by omega)
  refine Sim.step e2 (sim_guarded fun hgd => ?_)
  by_cases hv : truth v = true
  · rw [if_neg (by rw [hv]; simp)] at p2
    rw [if_pos hv]
    have := ha h2 ⟨hg3.trans hat.sub, hat.placed.left.right, j3, by omega⟩ t1 p2
    rcases this with this | this
    · exact .inl this
    refine .inr ?_
    cases hx : eval K.host n run a false s1 with
    | ok vs s' =>
      rw [hx] at this
      obtain ⟨k, vm', ek, p3⟩ := this
      obtain ⟨vm4, e4, p4⟩ := pt_jump g p3 j4 (by omega)
      rw [hpos2] at p4
      exact ⟨k + 1, vm4, stepN_add ek (stepN_one e4), p4⟩
    | _ => rw [hx] at this; exact this
  · rw [if_pos (by simpa using hv), hpos] at p2
    rw [if_neg hv]
    refine hb h3 ⟨hat.sub, hat.placed.right, j5, lt⟩ ?_ p2
    have := comp_tabs a .val _ _ _ h2 t1
    rwa [guard_ext (hgd.imp_right fun h => (List.append_eq_nil_iff.mp h).1)] at this

theorem val_while {c a : Ast} (hc : Val K n run c) (ha : Val K n run a) : Val K n run (.while_ c a) := by
  intro cs o p q ws s vm vm0 ρ0 h hat ht hp
  obtain ⟨x, y, h1, h2, rfl⟩ := Comp.while_some h
  obtain ⟨m3, i3, j4⟩ := codeAt_append.mp hat.code
  obtain ⟨m2, i2, j3⟩ := codeAt_append.mp i3
  obtain ⟨m1, i1, j2⟩ := codeAt_append.mp i2
  obtain ⟨m0, ⟨hpos0, e0⟩, j1⟩ := i1
  obtain rfl : p = m0 := e0.symm
  replace j2 := codeAt_one.mp j2
  obtain ⟨m6, j4, j7⟩ := j4
  obtain ⟨hpos1, rfl⟩ := codeAt_one.mp j7
  have l4 := j4.le
  have l3 := j3.le
  have l2 := j2.le
  have lt := hat.lt
  have hg2 := comp_grows a .val _ _ h2
  simp only [eval]
  refine sim_guarded fun hgd => ?_
  have hgc : s.scope.shape.ext (decls c) = s.scope.shape := guard_ext (hgd.imp_right fun h => (List.append_eq_nil_iff.mp h).1)
  have hga : s.scope.shape.ext (decls a) = s.scope.shape := guard_ext (hgd.imp_right fun h => (List.append_eq_nil_iff.mp h).2)
  have t1 : Tabs x.cs s.scope.shape := by
    have := comp_tabs c .val _ _ _ h1 ht
    rwa [hgc] at this
  refine (sim_loop (I := fun s' vm' => Pt K vm0 ρ0 p ws s' vm' ∧ s'.scope.shape = s.scope.shape) (Q := fun s' vm' => Pt K vm0 ρ0 q ws s' vm')
    (T := fun s' vm' => ∃ vm'', K.step vm' = .ok vm'' ∧ Pt K vm0 ρ0 m2 ws s' vm'' ∧ s'.scope.shape = s.scope.shape) (fun _ _ h => pt_ready h.1) ?_ ?_ n le_rfl s vm ⟨hp, rfl⟩).mono ?_
  · rintro s1 vm1 ⟨p1, hs1⟩
    refine (use_one hc h1 ⟨hg2.trans hat.sub, hat.placed.left, j1, by omega⟩ (by rw [hs1]; exact ht) p1).mono ?_
    rintro v s2 vm2 _ ⟨p2, _, hs2⟩
    obtain ⟨vm3, e3, p3⟩ := pt_branch g p2 j2 (op := .jumpz) (b := false) rfl (fun _ => rfl) (by omega)
    by_cases hv : truth v = true
    · rw [if_pos hv]
      rw [if_neg (by rw [hv]; simp)] at p3
      exact ⟨vm3, e3, p3, hs2.trans hs1⟩
    · rw [if_neg hv]
      rw [if_pos (by simpa using hv), hpos1] at p3
      exact ⟨1, vm3, stepN_one e3, p3⟩
  · rintro s1 vm1 ⟨vm2, e2, p2, hs2⟩
    refine ⟨vm2, e2, ?_⟩
    refine (use_none ha h2 ⟨hat.sub, hat.placed.right, j3, by omega⟩ (by rw [hs2]; exact t1) p2).mono ?_
    rintro _ s3 vm3 _ ⟨p3, _, hs3⟩
    obtain ⟨vm4, e4, p4⟩ := pt_jump g p3 j4 (by omega)
    rw [hpos0] at p4
    refine ⟨1, vm4, stepN_one e4, p4, ?_⟩
    rw [hs3, hs2, hga]
  · rintro vs s' vm' _ ⟨rfl, k⟩
    exact k

theorem val_for {i c u a : Ast} (hi : Val K n run i) (hc : Val K n run c) (hu : Val K n run u) (ha : Val K n run a) : Val K n run (.for_ i c u a) := by
  intro cs o p q ws s vm vm0 ρ0 h hat ht hp
  obtain ⟨w, x, y, z, h0, h1, h2, h3, rfl⟩ := Comp.for_some h
  obtain ⟨m7, i7, j8⟩ := codeAt_append.mp hat.code
  obtain ⟨m6, i6, j7⟩ := codeAt_append.mp i7
  obtain ⟨m5, i5, j6⟩ := codeAt_append.mp i6
  obtain ⟨m4, i4, j5⟩ := codeAt_append.mp i5
  obtain ⟨m3, i3, j4⟩ := codeAt_append.mp i4
  obtain ⟨m2, i2, j3⟩ := codeAt_append.mp i3
  obtain ⟨m1, j1, j2⟩ := codeAt_append.mp i2
  obtain ⟨hpos0, e⟩ := codeAt_one.mp j2
  obtain rfl : m2 = m1 := e
  obtain ⟨n1, j4, n2, j4', j9⟩ := j4
  obtain ⟨hpos1, e⟩ := codeAt_one.mp j9
  obtain rfl : m4 = n2 := e
  obtain ⟨n3, j6, j10⟩ := j6
  obtain ⟨hpos2, e⟩ := codeAt_one.mp j10
  obtain rfl : m6 = n3 := e
  obtain ⟨n4, j8, j11⟩ := j8
  obtain ⟨hpos3, e⟩ := codeAt_one.mp j11
  obtain rfl : q = n4 := e
  have l8 := j8.le
  have l7 := j7.le
  have l6 := j6.le
  have l5 := j5.le
  have l4' := j4'.le
  have l4 := j4.le
  have l3 := j3.le
  have lt := hat.lt
  have g3 := comp_grows a .val _ _ h3
  have g2 := (comp_grows u .val _ _ h2).trans g3
  have g1 := (comp_grows c .val _ _ h1).trans g2
  simp only [eval]
  refine Sim.bind (use_none hi h0 ⟨g1.trans hat.sub, hat.placed.left.left.left, j1, by omega⟩ ht hp) ?_
  rintro _ s0 vm1 _ ⟨p0, t0, _⟩
  refine sim_guarded fun hgd => ?_
  have hgd' : s0.scope.shape = .top ∨ (decls c = [] ∧ decls u = []) ∧ decls a = [] :=
    hgd.imp_right fun h => ⟨List.append_eq_nil_iff.mp (List.append_eq_nil_iff.mp h).1, (List.append_eq_nil_iff.mp h).2⟩
  have hgc : s0.scope.shape.ext (decls c) = s0.scope.shape := guard_ext (hgd'.imp_right fun h => h.1.1)
  have hgu : s0.scope.shape.ext (decls u) = s0.scope.shape := guard_ext (hgd'.imp_right fun h => h.1.2)
  have hga : s0.scope.shape.ext (decls a) = s0.scope.shape := guard_ext (hgd'.imp_right fun h => h.2)
  have t1 : Tabs x.cs s0.scope.shape := by
    have := comp_tabs c .val _ _ _ h1 t0
    rwa [hgc] at this
  have t2 : Tabs y.cs s0.scope.shape := by
    have := comp_tabs u .val _ _ _ h2 t1
    rwa [hgu] at this
  refine (sim_loop (I := fun s' vm' => Pt K vm0 ρ0 m2 ws s' vm' ∧ s'.scope.shape = s0.scope.shape) (Q := fun s' vm' => Pt K vm0 ρ0 q ws s' vm')
    (T := fun s' vm' => ∃ vm'', K.step vm' = .ok vm'' ∧ Pt K vm0 ρ0 m6 ws s' vm'' ∧ s'.scope.shape = s0.scope.shape) (fun _ _ h => pt_ready h.1) ?_ ?_ n le_rfl s0 vm1 ⟨p0, rfl⟩).mono ?_
  · rintro s1 vm1 ⟨p1, hs1⟩
    refine (use_one hc h1 ⟨g2.trans hat.sub, hat.placed.left.left.right, j3, by omega⟩ (by rw [hs1]; exact t0) p1).mono ?_
    rintro v s2 vm2 _ ⟨p2, _, hs2⟩
    obtain ⟨vm3, e3, p3⟩ := pt_branch g p2 j4 (op := .jumpnz) (b := true) rfl (fun _ => rfl) (by omega)
    by_cases hv : truth v = true
    · rw [if_pos hv]
      rw [if_pos hv, hpos2] at p3
      exact ⟨vm3, e3, p3, hs2.trans hs1⟩
    · rw [if_neg hv]
      rw [if_neg hv] at p3
      obtain ⟨vm4, e4, p4⟩ := pt_jump g p3 j4' (by omega)
      rw [hpos3] at p4
      exact ⟨1 + 1, vm4, stepN_add (stepN_one e3) (stepN_one e4), p4⟩
  · rintro s1 vm1 ⟨vm2, e2, p2, hs2⟩
    refine ⟨vm2, e2, ?_⟩
    refine Sim.bind (use_none ha h3 ⟨hat.sub, hat.placed.right, j7, by omega⟩ (by rw [hs2]; exact t2) p2) ?_
    rintro _ s3 vm3 _ ⟨p3, _, hs3⟩
    rw [hs2, hga] at hs3
    obtain ⟨vm4, e4, p4⟩ := pt_jump g p3 j8 (by omega)
    rw [hpos1] at p4
    refine Sim.step e4 ((use_none hu h2 ⟨g3.trans hat.sub, hat.placed.left.right, j5, by omega⟩ (by rw [hs3]; exact t1) p4).mono ?_)
    rintro _ s5 vm5 _ ⟨p5, _, hs5⟩
    rw [hs3, hgu] at hs5
    obtain ⟨vm6, e6, p6⟩ := pt_jump g p5 j6 (by omega)
    rw [hpos0] at p6
    exact ⟨1, vm6, stepN_one e6, p6, hs5⟩
  · rintro vs s' vm' _ ⟨rfl, k⟩
    exact k

/-! ### Programs -/

/-- All phrases, in every use. -/
theorem main (hrun : RunOk K n run) (a : Ast) : Val K n run a ∧ (Lang.isCallee a = true → Callee K n run a) ∧ (Lang.isRef a = true → Lval K n run a) := by
  induction a with
  | nil => exact ⟨val_nil g, nofun, nofun⟩
  | num t => exact ⟨val_num g, nofun, nofun⟩
  | str s => exact ⟨val_str g, nofun, nofun⟩
  | bin o a b iha ihb => exact ⟨val_bin g iha.1 ihb.1, nofun, nofun⟩
  | un o a iha => exact ⟨val_un g iha.1, nofun, nofun⟩
  | lam ps b ih => exact ⟨val_lam g, nofun, nofun⟩
  | tnew => exact ⟨val_tnew g, nofun, nofun⟩
  | tset t k v iht ihv => exact ⟨val_tset g iht.1 ihv.1, nofun, nofun⟩
  | id x => exact ⟨val_id g, fun _ => callee_id g, fun _ => lval_id g⟩
  | field r s ih => exact ⟨val_field g ih.1, fun _ => callee_field g ih.1, fun _ => lval_field g ih.1⟩
  | index r e ihr ihe => exact ⟨val_index g ihr.1 ihe.1, fun _ => callee_index g ihr.1 ihe.1, fun _ => lval_index g ihr.1 ihe.1⟩
  | call r as ihr ihs => exact ⟨val_call g hrun ihr.2.1 ihs.1, fun _ => callee_call g hrun ihr.2.1 ihs.1, nofun⟩
  | noArg => exact ⟨val_noArg g, nofun, nofun⟩
  | arg as a ih1 ih2 => exact ⟨val_arg g ih1.1 ih2.1, nofun, nofun⟩
  | decl x => exact ⟨val_decl g, nofun, nofun⟩
  | init x e ih => exact ⟨val_init g ih.1, nofun, nofun⟩
  | assign r e ihr ihe => exact ⟨val_assign g ihr.2.2 ihe.1, nofun, nofun⟩
  | run r ih => exact ⟨val_run g ih.1, nofun, nofun⟩
  | func f ps b ih => exact ⟨val_func g, nofun, nofun⟩
  | ifs c a ihc iha => exact ⟨val_ifs g ihc.1 iha.1, nofun, nofun⟩
  | ite c a b ihc iha ihb => exact ⟨val_ite g ihc.1 iha.1 ihb.1, nofun, nofun⟩
  | while_ c a ihc iha => exact ⟨val_while g ihc.1 iha.1, nofun, nofun⟩
  | for_ i c u a ihi ihc ihu iha => exact ⟨val_for g ihi.1 ihc.1 ihu.1 iha.1, nofun, nofun⟩
  | ret0 => exact ⟨val_ret0 g, nofun, nofun⟩
  | ret e ih => exact ⟨val_ret g ih.1, nofun, nofun⟩
  | block b ih => exact ⟨val_block g ih.1, nofun, nofun⟩
  | skip => exact ⟨val_skip g, nofun, nofun⟩
  | seq s l ih1 ih2 => exact ⟨val_seq g ih1.1 ih2.1, nofun, nofun⟩

omit g in
theorem runOk_time : RunOk K 0 (fun _ _ => .time) := by
  intro p xs ps b env s vm ρ _ _ _ hp
  exact ⟨0, by omega, .inr ⟨0, vm, le_rfl, rfl, pt_ready hp⟩⟩

/-- Function bodies. -/
theorem runOk_body (hrun : RunOk K n run) : RunOk K (n + 1) (fun b => eval K.host n run b false) := by
  intro p xs ps b env s vm ρ hf hsc hnames hp
  refine ⟨n, le_rfl, ?_⟩
  show Sim K n _ (eval K.host n run b false) s vm _
  obtain ⟨c, o, n', q, hloc, h1, hsub, hpl, hn, hcode, hq⟩ := hf
  obtain rfl : p = n' := by omega
  obtain ⟨y, h2, rfl⟩ := Comp.body_some h1
  obtain ⟨m2, j1, j3⟩ := codeAt_append.mp hcode
  obtain ⟨m1, j1, j2⟩ := codeAt_append.mp j1
  replace j3 := codeAt_one.mp j3
  have l2 := j2.le
  have l3 : m2 < q := by rw [j3.2]; omega
  rw [← hnames] at hloc
  have ht : Tabs c s.scope.shape := by rw [hsc]; exact hloc
  have := use_val (main g hrun b).1 h2 ⟨hsub, hpl, j1, by omega⟩ ht hp
  rcases this with this | this
  · exact .inl this
  refine .inr ?_
  cases hx : eval K.host n run b false s with
  | ok vs s' =>
    rw [hx] at this
    obtain ⟨k, vm', ek, p1, t1⟩ := this
    have hs1 := Lang.eval_adds _ _ _ _ _ _ _ _ hx
    rw [hsc] at hs1
    cases hsc' : s'.scope with
    | top => rw [hsc'] at hs1; cases hs1
    | inner => rw [hsc'] at hs1; cases hs1
    | fn env' =>
      rw [hsc'] at hs1 t1
      have hn' : env'.map (·.1) = env.map (·.1) ++ decls b := by simpa [Lang.Scope.shape, Shape.ext] using hs1
      have hlen : env'.length = env.length + (decls b).length := by
        have := congrArg List.length hn'
        simpa using this
      have hc1 : y.cs.top.length = env'.length := by rw [Loc.top t1, Comp.table_length, List.length_map]
      have hc2 : c.top.length = env.length := by rw [hloc.top, Comp.table_length, List.length_map]
      rw [hc1, hc2, show env'.length - env.length = (decls b).length by omega] at j2
      have hpos := (pt_env hp hsc).1
      by_cases hz : (decls b).length = 0
      · rw [if_neg (by simpa using hz)] at j2
        obtain rfl : m2 = m1 := j2
        obtain ⟨vm2, e2, r2⟩ := pt_ret0 g p1 j3 hsc'
        exact ⟨k + 1, vm2, stepN_add ek (stepN_one e2), r2⟩
      · rw [if_pos hz] at j2
        obtain ⟨vm2, e2, p2⟩ := pt_lremove g p1 (codeAt_one.mp j2) hsc' (by omega) (by omega)
        obtain ⟨vm3, e3, ρ', a, ra, S, rs, r1, r2, r3, r4, r5, r6, r7, r8⟩ := pt_ret0 g p2 j3 rfl
        refine ⟨k + 1 + 1, vm3, stepN_add (stepN_add ek (stepN_one e2)) (stepN_one e3), ρ', a, ra, S, rs, r1, r2, r3, r4, r5, ?_, r7, r8⟩
        exact ⟨r6.inv, r6.ready, r6.base, r6.strs, r6.len, r6.nodup, r6.low, r6.things, r6.globals⟩
  | _ => rw [hx] at this; exact this

theorem runOk_exec : ∀ n : Nat, RunOk K (n + 1) (Lang.exec K.host n)
  | 0 => runOk_body g runOk_time
  | n + 1 => runOk_body g (runOk_exec n)

/-- The code of a phrase follows its meaning. -/
theorem sim_exec (n : Nat) {a : Ast} {c : CS} {o : Comp.Out} {p q : Nat} {ws : List Obj} {s : St} {vm vm0 : VM} {ρ0 : List Nat} (hc : comp a .val c = some o) (hat : At K o p q)
    (ht : Tabs c s.scope.shape) (hp : Pt K vm0 ρ0 p ws s vm) :
    Sim K n (RetOf K vm0 ρ0) (Lang.exec K.host n a) s vm (fun vs s' vm' => Pt K vm0 ρ0 q (vs.reverse ++ ws) s' vm') := by
  cases n with
  | zero => exact (main g runOk_time a).1 hc hat ht hp
  | succ n => exact (main g (runOk_exec g n) a).1 hc hat ht hp

end

end Buzz.Sim
