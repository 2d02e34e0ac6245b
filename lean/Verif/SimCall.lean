import Verif.SimTab

/-
Calls and returns of compiled code.
-/
namespace Buzz.Sim

open Buzz.Msg Buzz.Heap Buzz.Props Buzz.VM
open Buzz.Lang (Ast Thing Scope Shape St Host)
open Buzz.Parser (Ln)
open Buzz.Comp (CS EC Sub Loc Tabs comp bodyC binOp unOp)

variable {K : Ctx} {n : Nat} {R : Obj → St → VM → Prop}

section
variable (g : Good K) {vm0 : VM} {ρ0 : List Nat} {p q : Nat} {w v : Obj} {ws : List Obj} {s : St} {vm : VM}
include g

omit g in
/-- The return address is where it was. -/
theorem ra_same {h h' : Heap} {ra : Nat} {n : Int} {m : Nat} (e : Evo h h') (k : Holds h' ra (.atom (.int (m : Int)))) (hl : ra < h.brk) (hn : Holds h ra (.atom (.int n))) : (m : Int) = n := by
  obtain ⟨c, h1, h2⟩ := e.same ra _ hl k
  cases holds_inj hn h1
  have h2 : Obj.int n = Obj.int (m : Int) := h2
  rw [Obj.int.injEq] at h2
  exact h2.symm

omit g in
theorem ready_go {vm : VM} {m : Nat} (hr : vm.state = .ready) (hp : vm.pc = (m : Int)) (hm : m < vm.code.length) : ifReady vm (fun vm => assertPc vm pure) = .ok vm := by
  unfold ifReady
  rw [if_pos hr]
  show (if vm.pc < 0 ∨ vm.pc ≥ vm.code.length then _ else _) = _
  rw [if_neg (by omega)]
  rfl

theorem pt_ret0 {env : List (Bytes × Obj)} (h : Pt K vm0 ρ0 p ws s vm) (l : LnAt K p (.op 5) q) (hs : s.scope = .fn env) :
    ∃ vm', K.step vm = .ok vm' ∧ RetOf K vm0 ρ0 .nil s vm' := by
  obtain ⟨l, rfl⟩ := l
  obtain ⟨vm1, ρ, as, h, hp, e, hv⟩ := h.go g l (op := .ret0) rfl
  obtain ⟨_, ⟨f, fs, hf, _⟩, ra, S, rs, m, hr, hra, hm⟩ : Sc K ρ vm1 (.fn env) := by
    have := h.sc
    rwa [hs] at this
  have hpk := (peek_at g (vm := { vm1 with swarmstack := if f.swarm then vm1.swarmstack.tail else vm1.swarmstack, frames := fs, stack := ra :: S, rest := rs }) (i := 0)
    (a := ra) (c := .atom (.int (m : Int))) rfl hra).2.2
  simp only [Nat.zero_add, Nat.cast_one] at hpk
  have e2 : VM.exec K.E K.F vm1 .ret0 = .ok (VM.push { vm1 with swarmstack := if f.swarm then vm1.swarmstack.tail else vm1.swarmstack, frames := fs, stack := S, rest := rs, pc := (m : Int) } (.atom .nil)) := by
    have : VM.exec K.E K.F vm1 .ret0 = (ret0 vm1 >>= fun vm => ifReady vm (fun vm => assertPc vm pure)) := rfl
    rw [this]
    unfold ret0
    simp only [hf, hr]
    unfold retTo
    rw [need_of g (by show (1 : Int) ≤ ((ra :: S).length : Nat); simp), hpk, Res.ok_bind]
    simp only [objOf]
    show ifReady (VM.push { vm1 with swarmstack := if f.swarm then vm1.swarmstack.tail else vm1.swarmstack, frames := fs, stack := S, rest := rs, pc := (m : Int) } (.atom .nil)) (fun vm => assertPc vm pure) = _
    exact ready_go h.core.ready (m := m) rfl (by show m < vm1.code.length; rw [h.core.code]; exact hm)
  have hi := hv _ e2
  have ex := ext_new h.core.inv.heap (.atom .nil)
  refine ⟨_, e.trans e2, ρ, vm1.heap.brk, ra, S, rs, h.rest.symm.trans hr, ?_, rfl, rfl, ?_, ?_, ?_, h.evo.trans ex.evo, h.pre⟩
  · intro n' hl hn
    exact ra_same h.evo hra hl hn
  · have := h.tail
    rw [hf] at this
    exact this
  · exact h.core.ext hi h.core.ready rfl (fun _ _ h => h) ex rfl rfl rfl
  · exact ⟨_, holds_new h.core.inv.heap _, rfl⟩

theorem pt_ret1 {env : List (Bytes × Obj)} (h : Pt K vm0 ρ0 p (v :: ws) s vm) (l : LnAt K p (.op 6) q) (hs : s.scope = .fn env) :
    ∃ vm', K.step vm = .ok vm' ∧ RetOf K vm0 ρ0 v s vm' := by
  obtain ⟨l, rfl⟩ := l
  obtain ⟨vm1, ρ, as, h, hp, e, hv⟩ := h.go g l (op := .ret1) rfl
  obtain ⟨_, ⟨f, fs, hf, _⟩, ra, S, rs, m, hr, hra, hm⟩ : Sc K ρ vm1 (.fn env) := by
    have := h.sc
    rwa [hs] at this
  obtain ⟨a, as', c, rfl, rs', h1, h2, hst⟩ := peek_top g h
  have hpa := (peek_at g (vm := { vm1 with swarmstack := if f.swarm then vm1.swarmstack.tail else vm1.swarmstack, frames := fs }) (i := 0)
    (a := a) (c := c) (by show vm1.stack[0]? = _; rw [hst]; rfl) h1).1
  have hpk := (peek_at g (vm := { vm1 with swarmstack := if f.swarm then vm1.swarmstack.tail else vm1.swarmstack, frames := fs, stack := ra :: S, rest := rs }) (i := 0)
    (a := ra) (c := .atom (.int (m : Int))) rfl hra).2.2
  simp only [Nat.zero_add, Nat.cast_one] at hpk hpa
  have e2 : VM.exec K.E K.F vm1 .ret1 = .ok { vm1 with swarmstack := if f.swarm then vm1.swarmstack.tail else vm1.swarmstack, frames := fs, stack := a :: S, rest := rs, pc := (m : Int) } := by
    have : VM.exec K.E K.F vm1 .ret1 = (ret1 vm1 >>= fun vm => ifReady vm (fun vm => assertPc vm pure)) := rfl
    rw [this]
    unfold ret1
    simp only [hf]
    rw [need_of g (by show (1 : Int) ≤ (vm1.stack.length : Nat); rw [hst]; simp; omega), hpa, Res.ok_bind]
    simp only [hr]
    unfold retTo
    rw [need_of g (by show (1 : Int) ≤ ((ra :: S).length : Nat); simp), hpk, Res.ok_bind]
    simp only [objOf]
    show ifReady { vm1 with swarmstack := if f.swarm then vm1.swarmstack.tail else vm1.swarmstack, frames := fs, stack := a :: S, rest := rs, pc := (m : Int) } (fun vm => assertPc vm pure) = _
    exact ready_go h.core.ready (m := m) rfl (by show m < vm1.code.length; rw [h.core.code]; exact hm)
  have hi := hv _ e2
  refine ⟨_, e.trans e2, ρ, a, ra, S, rs, h.rest.symm.trans hr, ?_, rfl, rfl, ?_, ?_, ⟨c, h1, h2⟩, h.evo, h.pre⟩
  · intro n' hl hn
    exact ra_same h.evo hra hl hn
  · have := h.tail
    rw [hf] at this
    exact this
  · exact h.core.ext hi h.core.ready rfl (fun _ _ h => h) (Ext.refl _) rfl rfl rfl

/-! ### Calls -/

omit g in
/-- What function bodies do. -/
def RunOk (K : Ctx) (n : Nat) (run : Ast → Lang.Ev (List Obj)) : Prop :=
  ∀ (p : Nat) (xs ps : List Bytes) (b : Ast) (env : List (Bytes × Obj)) (s : St) (vm : VM) (ρ : List Nat), FunAt K p xs ps b → s.scope = .fn env → env.map (·.1) = xs ++ ps →
    Pt K vm ρ p [] s vm → ∃ m, n ≤ m + 1 ∧ Sim K m (RetOf K vm ρ) (run b) s vm (fun _ s' vm' => RetOf K vm ρ .nil s' vm')

omit g in
theorem forall2_split {α β : Type} {r : α → β → Prop} {xs ys : List α} {as : List β} (h : List.Forall₂ r (xs ++ ys) as) :
    ∃ bs cs, as = bs ++ cs ∧ List.Forall₂ r xs bs ∧ List.Forall₂ r ys cs := by
  induction xs generalizing as with
  | nil => exact ⟨[], as, rfl, .nil, h⟩
  | cons x xs ih =>
    cases h with
    | cons r rs =>
      obtain ⟨bs, cs, rfl, h1, h2⟩ := ih rs
      exact ⟨_ :: bs, cs, rfl, .cons r h1, h2⟩

omit g in
theorem forall2_zip {ρ : List Nat} {h : Heap} {ps : List Bytes} {vs : List Obj} {bs : List Nat} (hl : vs.length = ps.length) (r : List.Forall₂ (fun w a => Rep ρ h w a) vs bs) :
    List.Forall₂ (fun e a => Rep ρ h e.2 a) (ps.zip vs) bs := by
  induction r generalizing ps with
  | nil => simp
  | cons r _ ih =>
    cases ps with
    | nil => cases hl
    | cons p ps => exact .cons r (ih (by simpa using hl))

omit g in
theorem apply_eq {lib : Lang.Lib} {run : Ast → Lang.Ev (List Obj)} {l : Nat} {vs : List Obj} (hl : ¬ Lang.limit ≤ vs.length) :
    Lang.apply lib run (.clo l) vs = (Lang.look l >>= fun t => match t with
      | .fn ps b env => if vs.length = ps.length ∧ env.length + ps.length < Lang.limit then Lang.inFunction (env ++ ps.zip vs) (run b) else Lang.odd
      | .host m env => Lang.inHost (lib m (env ++ vs))
      | _ => Lang.odd) := by
  unfold Lang.apply
  rw [if_neg hl]
  rfl

theorem pt_call {run : Ast → Lang.Ev (List Obj)} (hrun : RunOk K n run) {vs : List Obj} {c : Obj} (h : Pt K vm0 ρ0 p (.int (vs.length : Int) :: (vs.reverse ++ c :: w :: ws)) s vm)
    (l : LnAt K p (.op 33) q) (hq : q < K.code.length) :
    Sim K n R (Lang.apply K.lib run c vs) s vm (fun v s' vm' => Pt K vm0 ρ0 q (v :: ws) s' vm') := by
  by_cases hlim : Lang.limit ≤ vs.length
  · refine Sim.of_odd ?_
    unfold Lang.apply
    rw [if_pos hlim]
    rfl
  have hlim' : vs.length < 2147483647 := Nat.lt_of_not_le hlim
  obtain ⟨l, rfl⟩ := l
  by_cases hfull : K.loose = true ∧ 65533 < vm.strings.id2str.length
  · exact Sim.full ⟨hfull.1, 0, vm, rfl, hfull.2⟩
  obtain ⟨vm1, ρ, as, h, hp, e, hv, hfew⟩ := h.go' g l (op := .callc) rfl
  obtain ⟨na, as', nc, rfl, rs, n1, n2, hst⟩ := peek_top g h
  have hnc : nc = .atom (.int (vs.length : Int)) := by
    have := atom_cell n2 (by simp) (by simp)
    rw [this, show objOf na nc = .int (vs.length : Int) from n2]
  subst hnc
  obtain ⟨bs, cs, rfl, rbs, rcs⟩ := forall2_split rs
  cases rcs with
  | @cons _ ca _ cs rc rcs =>
  cases rcs with
  | @cons _ wa _ cs rw' rcs =>
  have hbl : bs.length = vs.length := by
    have := rbs.length_eq
    rw [List.length_reverse] at this
    exact this.symm
  obtain ⟨cc, c1, c2⟩ := rc
  have hst' : vm1.stack = na :: (bs ++ ca :: wa :: (cs ++ vm0.stack)) := by
    rw [hst]
    simp
  have pk1 := (peek_at g (vm := { vm1 with pc := ((p + 1 : Nat) : Int) }) (i := 0) (a := na) (by show vm1.stack[0]? = _; rw [hst]; rfl) n1).2.2
  have pk2 := (peek_at g (vm := { vm1 with pc := ((p + 1 : Nat) : Int), stack := bs ++ ca :: wa :: (cs ++ vm0.stack) }) (i := vs.length) (a := ca)
    (by show (bs ++ ca :: wa :: (cs ++ vm0.stack))[vs.length]? = _; rw [← hbl]; simp) c1).2.1
  simp only [Nat.zero_add, Nat.cast_one] at pk1
  have hpop : popN { vm1 with pc := ((p + 1 : Nat) : Int) } 1 = { vm1 with pc := ((p + 1 : Nat) : Int), stack := bs ++ ca :: wa :: (cs ++ vm0.stack) } := by
    unfold popN
    rw [hst']
    rfl
  have e2 : VM.exec K.E K.F vm1 .callc = (call K.F false { vm1 with pc := ((p + 1 : Nat) : Int) } >>= fun vm => ifReady vm (fun vm => assertPc vm pure)) :=
    inc_op (p := p) (vm := vm1) g h.core.code h.pc hq hp
  unfold call at e2
  rw [need_of g (by show (1 : Int) ≤ (vm1.stack.length : Nat); rw [hst']; simp; omega), pk1, Res.ok_bind] at e2
  simp only [objOf] at e2
  rw [if_neg (by omega), hpop, need_of g (by show ((vs.length : Int) + 1) ≤ ((bs ++ ca :: wa :: (cs ++ vm0.stack)).length : Nat); simp; omega)] at e2
  have pk2 : peekCell { vm1 with pc := ((p + 1 : Nat) : Int), stack := bs ++ ca :: wa :: (cs ++ vm0.stack) } ((vs.length : Int) + 1) = .ok cc := pk2
  rw [pk2, Res.ok_bind] at e2
  by_cases hclo : ∃ l, c = .clo l
  · obtain ⟨l, rfl⟩ := hclo
    obtain ⟨hl, cn, cr, cl, rfl⟩ := clo_cell h.core.inv c1 c2
    rw [apply_eq hlim]
    cases hsl : s.store[l]? with
    | none => exact Sim.of_odd (bind_odd (look_none hsl))
    | some th =>
      cases th with
      | tab es => exact Sim.of_odd (bind_eq (look_some hsl))
      | host hn env =>
        have hbe := bind_eq (f := fun t : Thing => match t with
          | .fn ps b env => if vs.length = ps.length ∧ env.length + ps.length < Lang.limit then Lang.inFunction (env ++ ps.zip vs) (run b) else Lang.odd
          | .host m env => Lang.inHost (K.lib m (env ++ vs))
          | _ => Lang.odd) (look_some hsl)
        simp only at hbe
        obtain ⟨hnf, fl, ⟨⟩, hreps, hne⟩ := h.core.things l ca _ _ hl hsl c1
        have i0 := h.core.inv
        have hdrop : (bs ++ ca :: wa :: (cs ++ vm0.stack)).drop (vs.length + 2) = cs ++ vm0.stack := by
          rw [List.drop_append, List.drop_of_length_le (by omega), hbl]
          simp
        have htake : (bs ++ ca :: wa :: (cs ++ vm0.stack)).take vs.length = bs := by
          rw [← hbl, List.take_left']
          rfl
        have hen : enter { vm1 with pc := ((p + 1 : Nat) : Int), stack := bs ++ ca :: wa :: (cs ++ vm0.stack) } ((vs.length : Int)).toNat cl false =
            { vm1 with pc := ((p + 1 : Nat) : Int), stack := [], rest := (vm1.heap.brk :: (cs ++ vm0.stack)) :: vm1.rest, frames := ⟨cl ++ bs.reverse, false⟩ :: vm1.frames,
                       heap := (newobj vm1.heap (.atom (.int ((p + 1 : Nat) : Int)))).1 } := by
          unfold enter
          simp only [Int.toNat_natCast, hdrop, htake]
          rfl
        have hi : VInv { vm1 with pc := ((p + 1 : Nat) : Int), stack := [], rest := (vm1.heap.brk :: (cs ++ vm0.stack)) :: vm1.rest, frames := ⟨cl ++ bs.reverse, false⟩ :: vm1.frames, heap := (newobj vm1.heap (.atom (.int ((p + 1 : Nat) : Int)))).1 } := by
          rw [← hen, ← hpop]
          have hpc : I32 ((p + 1 : Nat) : Int) := by
            have := g.size
            unfold I32
            omega
          exact ((i0.setPc hpc).popN 1).enter _ _ (i0.cells ca _ c1).2
        generalize hvm2 : ({ vm1 with pc := ((p + 1 : Nat) : Int), stack := [], rest := (vm1.heap.brk :: (cs ++ vm0.stack)) :: vm1.rest, frames := ⟨cl ++ bs.reverse, false⟩ :: vm1.frames, heap := (newobj vm1.heap (.atom (.int ((p + 1 : Nat) : Int)))).1 } : VM) = vm2 at hen hi
        have e3 : VM.exec K.E K.F vm1 .callc = (K.F hn vm2 >>= fun vm => ifReady vm (fun vm => assertPc vm pure)) := by
          rw [e2]
          simp only
          rw [if_neg (by
            rintro ⟨_, hx⟩
            have hx : (hn : Int) ≥ (vm1.nfuns : Int) := hx
            rw [h.core.nfuns] at hx
            omega), hen]
          simp only [Bool.false_eq_true, if_false]
          rw [if_neg (by omega), Int.toNat_natCast]
        have ex : Ext vm1.heap vm2.heap := by rw [← hvm2]; exact ext_new i0.heap _
        have hcore : Core K ρ { s with scope := .top } vm2 := by
          refine h.core.ext hi ?_ ?_ ?_ ex ?_ rfl rfl
          · rw [← hvm2]; exact h.core.ready
          · rw [← hvm2]
          · rw [← hvm2]; exact fun _ _ h => h
          · rw [← hvm2]
        have hra : Holds vm2.heap vm1.heap.brk (.atom (.int ((p + 1 : Nat) : Int))) := by
          rw [← hvm2]
          exact holds_new i0.heap _
        have hrp : List.Forall₂ (fun v a => Rep ρ vm2.heap v a) (env ++ vs) (cl ++ bs.reverse) := by
          have hr2 : List.Forall₂ (fun e a => Rep ρ vm1.heap e a) (env ++ vs) (cl ++ bs.reverse) := by
            refine List.rel_append hreps ?_
            have := List.forall₂_reverse_iff.mpr rbs
            rwa [List.reverse_reverse] at this
          refine reps_evo (f := fun e : Obj => e) hr2 i0.heap ex.evo (List.prefix_refl _) ?_
          intro a ha
          exact hi.frames ⟨cl ++ bs.reverse, false⟩ (by rw [← hvm2]; exact List.mem_cons_self ..) a ha
        have hlib := g.lib hn (env ++ vs) { s with scope := .top } vm2 ρ ⟨cl ++ bs.reverse, false⟩ vm1.frames vm1.heap.brk (cs ++ vm0.stack) vm1.rest (p + 1) hnf (by simp [hne]) hcore rfl
          (by rw [← hvm2]) hrp (by rw [← hvm2]) (by rw [← hvm2]) hra hq (fun hlo => by
            rw [← hvm2]
            have : ¬ 65533 < vm.strings.id2str.length := fun hx => hfull ⟨hlo, hx⟩
            show vm1.strings.id2str.length ≤ _
            omega)
        have hbe : _ = Lang.inHost (K.lib hn (env ++ vs)) s := hbe
        unfold Lang.inHost at hbe
        cases hx : K.lib hn (env ++ vs) { s with scope := .top } with
        | ok v s' =>
          rw [hx] at hbe hlib
          obtain ⟨vm', f1, ρ', a, ra, S, rs', r1, r2, r3, r4, r5, r6, r7, r8, r9⟩ := hlib
          have r1 : (vm1.heap.brk :: (cs ++ vm0.stack)) :: vm1.rest = (ra :: S) :: rs' := by
            rw [← r1, ← hvm2]
          cases r1
          have hpc := r2 _ (held_lt hi.heap hra) hra
          have hev : Evo vm1.heap vm'.heap := ex.evo.trans r8
          have e4 : VM.exec K.E K.F vm1 .callc = .ok vm' := by
            rw [e3, f1, Res.ok_bind]
            exact ready_go r6.ready (m := p + 1) hpc (by rw [r6.code]; exact hq)
          refine Sim.of_ok hbe ⟨1, vm', stepN_one (e.trans e4), ρ', a :: cs, r6.rescope _, ?_, hpc, ?_, .cons r7 ?_, ?_, ?_, ?_, h.evo.trans hev, h.pre.trans r9, h.floor⟩
          · refine h.sc.evo i0 r6.inv hev r9 ?_ r3
            rw [r5, ← hvm2]
            rfl
          · rw [r4]
            rfl
          · exact reps_evo (f := fun w => w) rcs i0.heap hev r9 fun x hx => r6.inv.stack x (by
              rw [r4]
              exact List.mem_cons_of_mem _ (List.mem_append_left _ hx))
          · rw [r3]; exact h.rest
          · rw [r5, ← hvm2]; exact h.tail
          · rw [r5, ← hvm2]; exact h.depth
        | err er =>
          rw [hx] at hbe hlib
          obtain ⟨vm', f1, f2, f3⟩ := hlib
          refine Sim.of_err hbe ⟨1, vm', stepN_one (e.trans ?_), f2, f3⟩
          rw [e3, f1, Res.ok_bind]
          unfold ifReady
          rw [if_neg (by rw [f2]; simp)]
        | ret v s' => rw [hx] at hbe; exact Sim.of_odd hbe
        | odd => rw [hx] at hbe; exact Sim.of_odd hbe
        | time => rw [hx] at hbe; exact Sim.of_odd hbe
      | fn ps b env =>
        have hbe := bind_eq (f := fun t : Thing => match t with
          | .fn ps b env => if vs.length = ps.length ∧ env.length + ps.length < Lang.limit then Lang.inFunction (env ++ ps.zip vs) (run b) else Lang.odd
          | .host m env => Lang.inHost (K.lib m (env ++ vs))
          | _ => Lang.odd) (look_some hsl)
        simp only at hbe
        by_cases hargs : vs.length = ps.length ∧ env.length + ps.length < Lang.limit
        · rw [if_pos hargs] at hbe
          obtain ⟨fp, fl, ⟨⟩, hreps, hne, hfun⟩ := h.core.things l ca _ _ hl hsl c1
          obtain ⟨fc, fo, fn, fq, k1, k2, k3, k4, rfl, k6, k7⟩ := hfun
          have hfn : fn < K.code.length := by
            rw [codeAt_append] at k6
            obtain ⟨r, j1, j2⟩ := k6
            have := j1.le
            rw [codeAt_one] at j2
            have := j2.2
            omega
          -- the machine enters the function
          have i0 := h.core.inv
          have ex : Ext vm1.heap (newobj vm1.heap (.atom (.int ((p + 1 : Nat) : Int)))).1 := ext_new i0.heap _
          have hdrop : (bs ++ ca :: wa :: (cs ++ vm0.stack)).drop (vs.length + 2) = cs ++ vm0.stack := by
            rw [List.drop_append, List.drop_of_length_le (by omega), hbl]
            simp
          have htake : (bs ++ ca :: wa :: (cs ++ vm0.stack)).take vs.length = bs := by
            rw [← hbl, List.take_left']
            rfl
          have hen : enter { vm1 with pc := ((p + 1 : Nat) : Int), stack := bs ++ ca :: wa :: (cs ++ vm0.stack) } ((vs.length : Int)).toNat cl false =
              { vm1 with pc := ((p + 1 : Nat) : Int), stack := [], rest := (vm1.heap.brk :: (cs ++ vm0.stack)) :: vm1.rest, frames := ⟨cl ++ bs.reverse, false⟩ :: vm1.frames,
                         heap := (newobj vm1.heap (.atom (.int ((p + 1 : Nat) : Int)))).1 } := by
            unfold enter
            simp only [Int.toNat_natCast, hdrop, htake]
            rfl
          have e3 : VM.exec K.E K.F vm1 .callc = .ok { vm1 with pc := (fn : Int), stack := [], rest := (vm1.heap.brk :: (cs ++ vm0.stack)) :: vm1.rest, frames := ⟨cl ++ bs.reverse, false⟩ :: vm1.frames, heap := (newobj vm1.heap (.atom (.int ((p + 1 : Nat) : Int)))).1 } := by
            rw [e2]
            simp only
            rw [if_neg (by simp), hen]
            simp only [if_true]
            rw [show ∀ (x : VM), (pure x : Res VM) = .ok x from fun _ => rfl, Res.ok_bind]
            exact ready_go h.core.ready (m := fn) rfl (by show fn < vm1.code.length; rw [h.core.code]; exact hfn)
          have hi := hv _ e3
          generalize hvm2 : ({ vm1 with pc := (fn : Int), stack := [], rest := (vm1.heap.brk :: (cs ++ vm0.stack)) :: vm1.rest, frames := ⟨cl ++ bs.reverse, false⟩ :: vm1.frames, heap := (newobj vm1.heap (.atom (.int ((p + 1 : Nat) : Int)))).1 } : VM) = vm2 at e3 hi
          have hcore : Core K ρ { s with scope := .fn (env ++ ps.zip vs) } vm2 := by
            refine h.core.ext hi ?_ ?_ ?_ ?_ ?_ rfl rfl
            · rw [← hvm2]; exact h.core.ready
            · rw [← hvm2]
            · rw [← hvm2]; exact fun _ _ h => h
            · rw [← hvm2]; exact ex
            · rw [← hvm2]
          have hzl : (ps.zip vs).length = ps.length := by
            rw [List.length_zip, hargs.1]
            exact min_self _
          have hra : Holds vm2.heap vm1.heap.brk (.atom (.int ((p + 1 : Nat) : Int))) := by
            rw [← hvm2]
            exact holds_new i0.heap _
          have hpt : Pt K vm2 ρ fn [] { s with scope := .fn (env ++ ps.zip vs) } vm2 := by
            refine ⟨ρ, [], hcore, ?_, ?_, ?_, .nil, rfl, rfl, rfl, Evo.refl _, List.prefix_refl _, by rw [← hvm2]; exact (h.rest ▸ h.floor).trans (Nat.le_succ _)⟩
            · refine ⟨⟨?_, ?_⟩, ⟨⟨cl ++ bs.reverse, false⟩, vm1.frames, ?_, ?_⟩, vm1.heap.brk, cs ++ vm0.stack, vm1.rest, p + 1, ?_, hra, hq⟩
              · rw [List.length_append]
                have := List.length_pos_of_ne_nil hne
                omega
              · rw [List.length_append, hzl]
                exact hargs.2
              · rw [← hvm2]
              · have hr2 : List.Forall₂ (fun e a => Rep ρ vm1.heap e.2 a) (env ++ ps.zip vs) (cl ++ bs.reverse) := by
                  refine List.rel_append hreps (forall2_zip hargs.1 ?_)
                  have := List.forall₂_reverse_iff.mpr rbs
                  rwa [List.reverse_reverse] at this
                refine reps_evo (f := fun e : Bytes × Obj => e.2) hr2 i0.heap ?_ (List.prefix_refl _) ?_
                · rw [← hvm2]; exact ex.evo
                · intro a ha
                  exact hi.frames ⟨cl ++ bs.reverse, false⟩ (by rw [← hvm2]; exact List.mem_cons_self ..) a ha
              · rw [← hvm2]
            · rw [← hvm2]
            · rw [← hvm2]; rfl
          obtain ⟨m, hm, hsim⟩ := hrun fn (env.map (·.1)) ps b (env ++ ps.zip vs) { s with scope := .fn (env ++ ps.zip vs) } vm2 ρ ⟨fc, fo, fn, fq, k1, k2, k3, k4, rfl, k6, k7⟩ rfl
            (by rw [List.map_append, List.map_fst_zip (by rw [hargs.1])]) hpt
          have hstep := stepN_one (e.trans e3)
          -- the machine comes back
          have hback : ∀ v s' vm', RetOf K vm2 ρ v s' vm' → Pt K vm0 ρ0 (p + 1) (v :: ws) { s' with scope := s.scope } vm' := by
            rintro v s' vm' ⟨ρ', a, ra, S, rs', r1, r2, r3, r4, r5, r6, r7, r8, r9⟩
            have r1 : (vm1.heap.brk :: (cs ++ vm0.stack)) :: vm1.rest = (ra :: S) :: rs' := by
              rw [← r1, ← hvm2]
            cases r1
            have hev : Evo vm1.heap vm'.heap := by
              refine Evo.trans ?_ r8
              rw [← hvm2]
              exact ex.evo
            refine ⟨ρ', a :: cs, r6.rescope _, ?_, r2 _ (held_lt hi.heap hra) hra, ?_, .cons r7 ?_, ?_, ?_, ?_, h.evo.trans hev, h.pre.trans r9, h.floor⟩
            · refine h.sc.evo i0 r6.inv hev r9 ?_ r3
              rw [r5, ← hvm2]
              rfl
            · rw [r4]
              rfl
            · exact reps_evo (f := fun w => w) rcs i0.heap hev r9 fun x hx => r6.inv.stack x (by
                rw [r4]
                exact List.mem_cons_of_mem _ (List.mem_append_left _ hx))
            · rw [r3]; exact h.rest
            · rw [r5, ← hvm2]; exact h.tail
            · rw [r5, ← hvm2]; exact h.depth
          -- the outcomes
          rcases hsim with hsim | hsim
          · exact .inl (hsim.after hstep)
          refine .inr ?_
          rw [hbe]
          unfold Lang.inFunction
          cases hx : run b { s with scope := .fn (env ++ ps.zip vs) } with
          | ok vs' s' =>
            rw [hx] at hsim
            obtain ⟨k, vm', j1, j2⟩ := hsim
            exact ⟨1 + k, vm', stepN_add hstep j1, hback _ _ _ j2⟩
          | ret v' s' =>
            rw [hx] at hsim
            obtain ⟨k, vm', j1, j2⟩ := hsim
            exact ⟨1 + k, vm', stepN_add hstep j1, hback _ _ _ j2⟩
          | err er =>
            rw [hx] at hsim
            obtain ⟨k, vm', j1, j2⟩ := hsim
            exact ⟨1 + k, vm', stepN_add hstep j1, j2⟩
          | odd => trivial
          | time =>
            rw [hx] at hsim
            obtain ⟨k, vm', j0, j1, j2⟩ := hsim
            exact ⟨1 + k, vm', by omega, stepN_add hstep j1, j2⟩
        · rw [if_neg hargs] at hbe
          exact Sim.of_odd hbe
  · have hne : ∀ l, c ≠ .clo l := fun l e => hclo ⟨l, e⟩
    have hd := not_clo_cell c2 hne
    refine Sim.of_err (er := .type) ?_ ?_
    · unfold Lang.apply
      rw [if_neg hlim]
      cases c with
      | clo l => exact absurd rfl (hne l)
      | _ => rfl
    · have e3 : VM.exec K.E K.F vm1 .callc = .ok (setErr { vm1 with pc := ((p + 1 : Nat) : Int), stack := bs ++ ca :: wa :: (cs ++ vm0.stack) } .type) := by
        rw [e2]
        cases cc with
        | clo x y z => exact absurd rfl (hd x y z)
        | _ => rfl
      exact ⟨1, _, stepN_one (e.trans e3), rfl, rfl⟩

end

end Buzz.Sim
