import Verif.Install
import Verif.SimTab
import Verif.SwarmExec

/-
Registering the machine's functions, on machines that are in a state of the program: the commands of the C code bring the machine from the
state before to the one that `Buzz.Lang.install` says.
-/
namespace Buzz.Sim

open Buzz.Msg Buzz.Heap Buzz.Props Buzz.VM
open Buzz.Lang (Ast Thing Scope Shape St Host Regs)
open Buzz.Parser (Ln)
open Buzz.Comp (CS EC Sub Loc Tabs comp bodyC)

/-- The surroundings with `n` functions of the host, none of them with a meaning. -/
abbrev upTo (K : Ctx) (n : Nat) : Ctx := { K with lib := Lang.noLib, nfuns := n }

theorem lnAt_lib (K : Ctx) (lib : Lang.Lib) (n : Nat) (p : Nat) (l : Ln) (q : Nat) : LnAt { K with lib := lib, nfuns := n } p l q = LnAt K p l q := by
  cases l <;> rfl

theorem codeAt_lib (K : Ctx) (lib : Lang.Lib) (n : Nat) (ls : List Ln) : ∀ p q, CodeAt { K with lib := lib, nfuns := n } p ls q = CodeAt K p ls q := by
  induction ls with
  | nil => intro p q; rfl
  | cons l ls ih =>
    intro p q
    simp only [CodeAt, lnAt_lib, ih]

theorem placed_lib (K : Ctx) (lib : Lang.Lib) (n : Nat) (news : List EC) : Placed { K with lib := lib, nfuns := n } news = Placed K news := by
  simp only [Placed, codeAt_lib]

theorem funAt_lib (K : Ctx) (lib : Lang.Lib) (n : Nat) (p : Int) (xs ps : List Bytes) (b : Ast) : FunAt { K with lib := lib, nfuns := n } p xs ps b = FunAt K p xs ps b := by
  simp only [FunAt, codeAt_lib, placed_lib]

theorem ThingOk.lib {K : Ctx} {lib : Lang.Lib} {n : Nat} (h : K.nfuns ≤ n) {ρ : List Nat} {hp : Heap} {t : Thing} {c : Cell} (k : ThingOk K ρ hp t c) :
    ThingOk { K with lib := lib, nfuns := n } ρ hp t c := by
  cases t with
  | tab es => exact k
  | fn ps b env =>
    obtain ⟨p, l, h1, h2, h3, h4⟩ := k
    exact ⟨p, l, h1, h2, h3, by rw [funAt_lib]; exact h4⟩
  | host m env =>
    obtain ⟨h0, h1⟩ := k
    exact ⟨lt_of_lt_of_le h0 h, h1⟩

/-- More functions of the host. -/
theorem Core.lib {K : Ctx} {lib : Lang.Lib} {n : Nat} {ρ : List Nat} {s : St} {vm : VM} (h : Core K ρ s vm) (hn : K.nfuns ≤ n) : Core { K with lib := lib, nfuns := n } ρ s { vm with nfuns := n } where
  inv := { h.inv with }
  ready := h.ready
  base := by
    show (vm.code, n) = (K.code, n)
    rw [h.code]
  strs := h.strs
  len := h.len
  nodup := h.nodup
  low := h.low
  things l a t c h1 h2 h3 := (h.things l a t c h1 h2 h3).lib hn
  globals := h.globals

theorem good_upTo {K : Ctx} (g : Good K) (n : Nat) : Good (upTo K n) := { g with lib := noLib_ok rfl }

variable {K : Ctx} {vm0 : VM} {ρ0 : List Nat} {p : Nat} {ws : List Obj} {s s' : St} {vm vm' : VM} {ρ as : List Nat} {r r' : Regs} {t t' : Nat}

/-- The same, seen from the machine itself. -/
theorem PtR.here (h : PtR K vm0 ρ0 p ws s vm ρ as) : PtR K { vm0 with heap := vm.heap } ρ p ws s vm ρ as :=
  { h with stack := h.stack, rest := h.rest, tail := h.tail, depth := h.depth, evo := Evo.refl _, pre := List.prefix_refl _, floor := h.floor }

theorem PtR.back {K' : Ctx} {p' : Nat} {ws' : List Obj} {ρ' as' : List Nat} (h : PtR K vm0 ρ0 p ws s vm ρ as) (k : PtR K' { vm0 with heap := vm.heap } ρ p' ws' s' vm' ρ' as') :
    PtR K' vm0 ρ0 p' ws' s' vm' ρ' as' :=
  { k with stack := k.stack, rest := k.rest, tail := k.tail, depth := k.depth, evo := h.evo.trans k.evo, pre := h.pre.trans k.pre }

/-- The C variable and the global variable stored last. -/
structure Side (ρ : List Nat) (r : Regs) (s : St) (vm : VM) (t : Nat) : Prop where
  var : ∀ v, r.t = some v → Rep ρ vm.heap v t
  last : ∀ x, r.last = some x → ∃ i a, Strman.get vm.strings i = some x ∧ FMap.get vm.gsyms i = some a ∧ Rep ρ vm.heap (Lang.globalVal x s) a

/-- The machine is in the middle of registering its functions. -/
def In (K : Ctx) (vm0 : VM) (ρ0 : List Nat) (p : Nat) (r : Regs) (s : St) (vm : VM) (t : Nat) : Prop :=
  ∃ ρ as, PtR (upTo K r.nf) vm0 ρ0 p r.ws s vm ρ as ∧ s.scope = .top ∧ Side ρ r s vm t

theorem Side.keep (h : Side ρ r s vm t) {ρ' : List Nat} (i : Inv vm.heap) (e : Evo vm.heap vm'.heap) (hp : ρ <+: ρ') (hl : ∀ a, Live vm.heap a → Live vm'.heap a)
    (hs : ∀ j x, Strman.get vm.strings j = some x → Strman.get vm'.strings j = some x) (hg : vm'.gsyms = vm.gsyms) (h1 : r'.t = r.t) (h2 : r'.last = r.last)
    (h3 : s'.globals = s.globals) : Side ρ' r' s' vm' t where
  var v hv := by
    have hr := h.var v (h1 ▸ hv)
    exact hr.evo i e hp (hl _ hr.live)
  last x hx := by
    obtain ⟨j, a, k1, k2, k3⟩ := h.last x (h2 ▸ hx)
    refine ⟨j, a, hs _ _ k1, by rw [hg]; exact k2, ?_⟩
    have e1 : Lang.globalVal x s' = Lang.globalVal x s := by unfold Lang.globalVal; rw [h3]
    rw [e1]
    exact k3.evo i e hp (hl _ k3.live)

/-- Pushing an object that is not a location, perhaps after strings have been added. -/
theorem In.push {c : Cell} {v : Obj} {sm : Strman.SM Bytes} (h : In K vm0 ρ0 p r s vm t) (hi : VInv { vm with strings := sm })
    (hp : ∀ x i, FMap.get vm.strings.id2str i = some (x, true) → FMap.get sm.id2str i = some (x, true))
    (hs : ∀ j x, Strman.get vm.strings j = some x → Strman.get sm j = some x) (hc : CellOk vm.heap sm c) (hv : ∀ ρ a, Img ρ v (objOf a c)) :
    In K vm0 ρ0 p { r with ws := v :: r.ws } s (VM.push { vm with strings := sm } c) t := by
  obtain ⟨ρ, as, h, hsc, hside⟩ := h
  have iv := hi.push hc
  have ex : Ext vm.heap (VM.push { vm with strings := sm } c).heap := ext_new h.core.inv.heap c
  refine ⟨ρ, (newobj vm.heap c).2 :: as, ?_, hsc, hside.keep h.core.inv.heap ex.evo (List.prefix_refl _) (fun a ha => live_old h.core.inv.heap ha) hs rfl rfl rfl rfl⟩
  exact {
    core := h.core.ext iv h.core.ready rfl hp ex rfl rfl rfl
    sc := h.sc.evo h.core.inv iv ex.evo (List.prefix_refl _) rfl rfl
    pc := h.pc
    stack := by
      show _ :: vm.stack = _
      rw [h.stack]
      rfl
    reps := .cons ⟨c, holds_new h.core.inv.heap c, hv _ _⟩ (reps_evo (f := fun w => w) h.reps h.core.inv.heap ex.evo (List.prefix_refl _) fun a ha =>
      live_old h.core.inv.heap (h.core.inv.stack a (by rw [h.stack]; exact List.mem_append_left _ ha)))
    rest := h.rest
    tail := h.tail
    depth := h.depth
    evo := h.evo.trans ex.evo
    pre := h.pre
    floor := h.floor }

theorem In.inv (h : In K vm0 ρ0 p r s vm t) : VInv vm := by
  obtain ⟨ρ, as, h, _⟩ := h
  exact h.core.inv

theorem In.atom {v : Obj} (h : In K vm0 ρ0 p r s vm t) (hc : CellOk vm.heap vm.strings (.atom v)) (hv : ∀ ρ a, Img ρ v (objOf a (.atom v))) :
    In K vm0 ρ0 p { r with ws := v :: r.ws } s (VM.push vm (.atom v)) t :=
  h.push (sm := vm.strings) h.inv (fun _ _ h => h) (fun _ _ h => h) hc hv

theorem register_protected {sm : Strman.SM Bytes} (i : Strman.Inv sm) (hl : sm.id2str.length ≤ 65533) (s : Bytes) (p : Bool) {sm' : Strman.SM Bytes} {id : Nat}
    (h : Strman.register sm s p = .ok (sm', id)) : ∀ x j, FMap.get sm.id2str j = some (x, true) → FMap.get sm'.id2str j = some (x, true) := by
  intro x j hx
  cases hs : FMap.get sm.str2id s with
  | some k =>
    obtain ⟨sm2, h1, _, _, _, h5, _⟩ := Strman.register_old i hs p
    rw [h1] at h
    cases h
    exact (h5 j x true).mpr ⟨true, hx, rfl⟩
  | none =>
    obtain ⟨sm2, k, h1, _, h3, h4, _⟩ := Strman.register_new i hs p hl
    rw [h1] at h
    cases h
    rw [h4, if_neg]
    · exact hx
    · rintro rfl
      rw [h3] at hx
      cases hx

theorem In.string {x : Bytes} {b : Bool} (h : In K vm0 ρ0 p r s vm t) (hl : vm.strings.id2str.length ≤ 65533) (hx : Obj.CStr x) :
    ∃ sm id, Strman.register vm.strings x b = .ok (sm, id) ∧ sm.id2str.length ≤ vm.strings.id2str.length + 1 ∧
      In K vm0 ρ0 p { r with ws := .str 0 x :: r.ws } s (pushS { vm with strings := sm } id) t := by
  have i := h.inv
  obtain ⟨sm, id, e1, e2, e3, e4, e5, e6⟩ := register_inv i.strings hl x b
  refine ⟨sm, id, e1, e3, ?_⟩
  unfold pushS
  simp only [Nat.mod_eq_of_lt e5, e4]
  exact h.push (c := .atom (.str id x)) (i.setStrings e2 e6) (register_protected i.strings hl x b e1) e6 e4 fun _ _ => ⟨rfl, hx, id, rfl⟩

/-- A new location on top of the stack. -/
theorem PtR.fresh {vm' : VM} {a : Nat} {c : Cell} {th : Thing} {v : Obj} (h : PtR K vm0 ρ0 p ws s vm ρ as) (i : VInv vm') (e : Ext vm.heap vm'.heap)
    (hr : vm'.state = vm.state) (hc : (vm'.code, vm'.nfuns) = (vm.code, vm.nfuns)) (hs : vm'.strings = vm.strings) (hg : vm'.gsyms = vm.gsyms) (hre : vm'.rest = vm.rest)
    (hf : vm'.frames = vm.frames) (hq : vm'.pc = vm.pc) (ha : vm.heap.brk ≤ a) (hh : Holds vm'.heap a c) (ht : ThingOk K (ρ ++ [a]) vm'.heap th c) (hv : Img (ρ ++ [a]) v (objOf a c))
    (hst : vm'.stack = a :: vm.stack) : PtR K vm0 ρ0 p (v :: ws) (withNew th s) vm' (ρ ++ [a]) (a :: as) :=
  h.allocR i e hr hc hs hg hre hf (hq.trans h.pc) ha hh ht hv (by rw [hst, h.stack]) h.reps

theorem newTab_ok (ρ : List Nat) (h : Heap) : ThingOk K ρ h (.tab []) (.tab Table.new) := by
  refine ⟨_, rfl, Dict.new_wf (by decide), List.nodup_nil, .inl (by simp), [], ?_, .nil⟩
  rw [show Dict.entries (Table.new : Table.Tbl (Nat × Nat)) = [] from Dict.entries_new _]

theorem cellOk_newTab (h : Heap) (sm : Strman.SM Bytes) : CellOk h sm (.tab Table.new) := by
  refine ⟨by decide, ?_⟩
  rw [show Dict.entries (Table.new : Table.Tbl (Nat × Nat)) = [] from Dict.entries_new _]
  intro e he
  cases he

theorem In.table (h : In K vm0 ρ0 p r s vm t) : In K vm0 ρ0 p { r with ws := .tab s.store.length :: r.ws } (withNew (.tab []) s) (pushT vm) t := by
  obtain ⟨ρ, as, h, hsc, hside⟩ := h
  have i := h.core.inv
  have ex := ext_new i.heap (.tab Table.new)
  refine ⟨ρ ++ [vm.heap.brk], vm.heap.brk :: as, ?_, hsc, hside.keep i.heap ex.evo (prefix_append _ _) (fun a ha => live_old i.heap ha) (fun _ _ h => h) rfl rfl rfl rfl⟩
  refine h.fresh (i.push (cellOk_newTab _ _)) ex rfl rfl rfl rfl rfl rfl rfl (le_refl _) (holds_new i.heap _) (newTab_ok _ _) ?_ rfl
  exact ⟨vm.heap.brk, by rw [← h.core.len, List.getElem?_concat_length], rfl⟩

theorem In.var (h : In K vm0 ρ0 p r s vm t) :
    In K vm0 ρ0 p { r with t := some (.tab s.store.length) } (withNew (.tab []) s) { vm with heap := (newobj vm.heap (.tab Table.new)).1 } (newobj vm.heap (.tab Table.new)).2 := by
  have h' := h.table
  obtain ⟨ρ, as, k, hsc, hside⟩ := h'
  obtain ⟨ρ1, as1, k1, _, hside1⟩ := h
  cases hr : k.reps with
  | @cons _ a _ as' r0 rs =>
    have hst2 : vm.heap.brk :: vm.stack = a :: (as' ++ vm0.stack) := k.stack
    rw [List.cons.injEq] at hst2
    obtain ⟨rfl, hst2⟩ := hst2
    refine ⟨ρ, as', ?_, hsc, ?_⟩
    · have iv : VInv { vm with heap := (newobj vm.heap (.tab Table.new)).1 } := k1.core.inv.newobj (cellOk_newTab _ _)
      exact {
        core := { k.core with inv := iv, ready := k.core.ready, base := k.core.base, strs := k.core.strs, low := k.core.low, things := k.core.things, globals := k.core.globals }
        sc := by
          rw [hsc]
          have := k.sc
          rw [hsc] at this
          exact this
        pc := k.pc
        stack := hst2
        reps := rs
        rest := k.rest
        tail := k.tail
        depth := k.depth
        evo := k.evo
        pre := k.pre
        floor := k.floor }
    · refine ⟨?_, hside.last⟩
      rintro _ ⟨⟩
      exact r0

theorem In.func (h : In K vm0 ρ0 p r s vm t) (hn : r.nf < 65536) :
    In K vm0 ρ0 p { r with ws := .clo s.store.length :: r.ws, nf := r.nf + 1 } (withNew (.host r.nf [.nil]) s) (pushC (functionRegister vm).1 ((functionRegister vm).2 : Int) false) t := by
  obtain ⟨ρ, as, h, hsc, hside⟩ := h
  have hnf : vm.nfuns = r.nf := h.core.nfuns
  have h1 : PtR (upTo K (r.nf + 1)) vm0 ρ0 p r.ws s { vm with nfuns := vm.nfuns + 1 } ρ as := by
    have hc := h.core.lib (lib := Lang.noLib) (n := r.nf + 1) (Nat.le_succ _)
    rw [hnf]
    exact { h with
      core := hc
      sc := by
        have := h.sc
        rw [hsc] at this ⊢
        exact this
      pc := h.pc, stack := h.stack, reps := h.reps, rest := h.rest, tail := h.tail, depth := h.depth, evo := h.evo }
  have i1 := h.core.inv.heap
  have hI : I32 (r.nf : Int) := by
    unfold I32
    omega
  show In K vm0 ρ0 p _ _ (pushC { vm with nfuns := vm.nfuns + 1 } (vm.nfuns : Int) false) t
  have hi : VInv (pushC { vm with nfuns := vm.nfuns + 1 } (vm.nfuns : Int) false) := h1.core.inv.pushC (by rw [hnf]; exact hI) false
  rw [hnf] at hi h1 ⊢
  have i2 : Inv (newobj vm.heap (.clo false r.nf [])).1 := inv_alloc i1 (by intro b hb; cases hb)
  have hh1 : Holds (newobj (newobj vm.heap (.clo false r.nf [])).1 (.atom .nil)).1 vm.heap.brk (.clo false r.nf []) := holds_old i2 (holds_new i1 _)
  have hh2 : Holds (newobj (newobj vm.heap (.clo false r.nf [])).1 (.atom .nil)).1 (vm.heap.brk + 1) (.atom .nil) := holds_new i2 _
  have ex : Ext vm.heap (write (newobj (newobj vm.heap (.clo false r.nf [])).1 (.atom .nil)).1 vm.heap.brk (.clo false r.nf [vm.heap.brk + 1])) := by
    refine ⟨by show vm.heap.brk ≤ vm.heap.brk + 1 + 1; omega, fun a c hl hh => ?_⟩
    rcases (holds_write hh1).mp hh with ⟨rfl, _⟩ | ⟨_, hh⟩
    · omega
    · rcases (holds_alloc i2).mp hh with ⟨rfl, _⟩ | hh
      · have hl : vm.heap.brk + 1 < vm.heap.brk := hl
        omega
      · rcases (holds_alloc i1).mp hh with ⟨rfl, _⟩ | hh
        · omega
        · exact hh
  have hlive : ∀ a, Live vm.heap a → Live (write (newobj (newobj vm.heap (.clo false r.nf [])).1 (.atom .nil)).1 vm.heap.brk (.clo false r.nf [vm.heap.brk + 1])) a := by
    rintro a ⟨c, hc⟩
    exact ⟨c, (holds_write hh1).mpr (.inr ⟨by have := held_lt i1 hc; omega, holds_old i2 (holds_old i1 hc)⟩)⟩
  refine ⟨ρ ++ [vm.heap.brk], vm.heap.brk :: as, ?_, hsc, hside.keep i1 ex.evo (prefix_append _ _) hlive (fun _ _ h => h) rfl rfl rfl rfl⟩
  refine h1.fresh hi ex rfl rfl rfl rfl rfl rfl rfl (le_refl _) (c := .clo false r.nf [vm.heap.brk + 1]) ?_ ?_ ?_ rfl
  · exact (holds_write hh1).mpr (.inl ⟨rfl, rfl⟩)
  · refine ⟨Nat.lt_succ_self _, _, rfl, .cons ?_ .nil, by simp⟩
    exact ⟨_, (holds_write hh1).mpr (.inr ⟨by omega, hh2⟩), rfl⟩
  · exact ⟨vm.heap.brk, by rw [← h.core.len, List.getElem?_concat_length], rfl⟩

/-- A value that is there is pushed again. -/
theorem In.again {v : Obj} {a : Nat} (h : In K vm0 ρ0 p r s vm t) (hv : ∀ ρ as, PtR (upTo K r.nf) vm0 ρ0 p r.ws s vm ρ as → Side ρ r s vm t → Rep ρ vm.heap v a) :
    In K vm0 ρ0 p { r with ws := v :: r.ws } s (pushAddr vm a) t := by
  obtain ⟨ρ, as, h, hsc, hside⟩ := h
  have hr := hv ρ as h hside
  have iv := h.core.inv.pushAddr hr.live
  refine ⟨ρ, a :: as, ?_, hsc, ⟨hside.var, hside.last⟩⟩
  exact {
    core := { h.core with inv := iv, ready := h.core.ready, base := h.core.base, strs := h.core.strs, low := h.core.low, things := h.core.things, globals := h.core.globals }
    sc := by
      have := h.sc
      rw [hsc] at this ⊢
      exact this
    pc := h.pc
    stack := by
      show _ :: vm.stack = _
      rw [h.stack]
      rfl
    reps := .cons hr h.reps
    rest := h.rest
    tail := h.tail
    depth := h.depth
    evo := h.evo
    pre := h.pre
    floor := h.floor }

/-- Writing a table leaves strings and variables alone and drops no object. -/
theorem tput_keeps {E : Env} {vm vm' : VM} (i : VInv vm) (h : tput E vm = .ok vm') :
    vm'.strings = vm.strings ∧ vm'.gsyms = vm.gsyms ∧ ∀ a, Live vm.heap a → Live vm'.heap a := by
  unfold tput at h
  have herr : ∀ {u : VM} {e : Err} (_ : u.strings = vm.strings ∧ u.gsyms = vm.gsyms ∧ u.heap = vm.heap), (pure (setErr u e) : Res VM) = .ok vm' →
      vm'.strings = vm.strings ∧ vm'.gsyms = vm.gsyms ∧ ∀ a, Live vm.heap a → Live vm'.heap a := by
    rintro u e ⟨h1, h2, h3⟩ h
    cases h
    exact ⟨h1, h2, fun a ha => by show Live u.heap a; rw [h3]; exact ha⟩
  by_cases hl : (vm.stack.length : Int) - 3 < 0
  · unfold need at h
    rw [if_pos hl] at h
    exact herr ⟨rfl, rfl, rfl⟩ h
  · unfold need at h
    rw [if_neg hl] at h
    obtain ⟨a1, c1, g1, k1, q1, r1, p1⟩ := peek_ok i (n := 0) (by omega)
    obtain ⟨a2, c2, g2, k2, q2, r2, p2⟩ := peek_ok i (n := 1) (by omega)
    obtain ⟨a3, c3, g3, k3, q3, r3, p3⟩ := peek_ok i (n := 2) (by omega)
    simp only [Nat.zero_add, Nat.cast_one, Nat.reduceAdd, Nat.cast_ofNat] at p1 p2 p3 q1 q2 q3 r1 r2 r3
    simp only [q3, r3, Res.ok_bind] at h
    cases c3 with
    | atom o => exact herr ⟨rfl, rfl, rfl⟩ h
    | clo n r l => exact herr ⟨rfl, rfl, rfl⟩ h
    | tab tb =>
      have hw : ∀ t', ∀ a, Live vm.heap a → Live (write vm.heap a3 (.tab t')) a := by
        rintro t' a ⟨c, hc⟩
        by_cases ha : a = a3
        · subst ha
          exact ⟨_, (holds_write k3).mpr (.inl ⟨rfl, rfl⟩)⟩
        · exact ⟨c, (holds_write k3).mpr (.inr ⟨ha, hc⟩)⟩
      simp only [q1, r1, q2, p2, Res.ok_bind] at h
      split at h
      · split at h
        · obtain ⟨t', _, h⟩ := Res.bind_eq_ok.mp h
          cases h
          exact ⟨rfl, rfl, hw t'⟩
        · rename_i n0 r0 l0
          obtain ⟨t', _, h⟩ := Res.bind_eq_ok.mp h
          cases h
          refine ⟨rfl, rfl, ?_⟩
          rintro a ⟨c, hc⟩
          have k3' := holds_old (c := .clo n0 r0 (a3 :: l0.tail)) i.heap k3
          by_cases ha : a = a3
          · subst ha
            exact ⟨_, (holds_write k3').mpr (.inl ⟨rfl, rfl⟩)⟩
          · exact ⟨c, (holds_write k3').mpr (.inr ⟨ha, holds_old i.heap hc⟩)⟩
        · obtain ⟨t', _, h⟩ := Res.bind_eq_ok.mp h
          cases h
          exact ⟨rfl, rfl, hw t'⟩
      · exact herr (u := VM.popN vm 3) ⟨rfl, rfl, rfl⟩ h

theorem In.put {v k x : Obj} {ws : List Obj} (g : Good K) (h : In K vm0 ρ0 p r s vm t) (hw : r.ws = v :: k :: x :: ws) (hr : r'.ws = ws ∧ r'.t = r.t ∧ r'.nf = r.nf ∧ r'.last = r.last)
    (he : Lang.tabPut x k v s = .ok () s') (hg : s'.globals = s.globals ∧ s'.scope = s.scope) :
    ∃ vm', tput K.E vm = .ok vm' ∧ vm'.strings = vm.strings ∧ In K vm0 ρ0 p r' s' vm' t := by
  obtain ⟨ρ, as, h, hsc, hside⟩ := h
  have i := h.core.inv
  have h0 := h
  rw [hw] at h
  have hx := ptr_tput (good_upTo g r.nf) h.here fun vm' he => by
    have := tput_out (E := K.E) (F := K.F) i
    have he : tput K.E vm = .ok vm' := he
    rw [he] at this
    exact this.1
  rw [he] at hx
  obtain ⟨vm', e1, ρ', as', e2⟩ := hx
  have e1 : tput K.E vm = .ok vm' := e1
  obtain ⟨k1, k2, k3⟩ := tput_keeps i e1
  refine ⟨vm', e1, k1, ρ', as', ?_, hg.2.trans hsc, hside.keep i.heap e2.evo e2.pre k3 (by rw [k1]; exact fun _ _ h => h) k2 hr.2.1 hr.2.2.2 hg.1⟩
  rw [hr.1, hr.2.2.1]
  exact h.back e2

theorem id_inj {sm : Strman.SM Bytes} (i : Strman.Inv sm) {j k : Nat} {x y : Bytes} (h1 : Strman.get sm j = some x) (h2 : Strman.get sm k = some y) : j = k ↔ x = y := by
  constructor
  · rintro rfl
    rw [h1] at h2
    cases h2
    rfl
  · rintro rfl
    unfold Strman.get at h1 h2
    rw [Option.map_eq_some_iff] at h1 h2
    obtain ⟨⟨s1, p1⟩, h1, rfl⟩ := h1
    obtain ⟨⟨s2, p2⟩, h2, e⟩ := h2
    have a1 := i.back _ _ _ h1
    have a2 := i.back _ _ _ h2
    simp only at e
    subst e
    rw [a1] at a2
    cases a2
    rfl

/-- The number of a string on the stack. -/
theorem str_cell {ρ : List Nat} {vm : VM} {x : Bytes} {a : Nat} {c : Cell} (i : VInv vm) (ha : Holds vm.heap a c) (hi : Img ρ (.str 0 x) (objOf a c)) :
    ∃ j, objOf a c = .str j x ∧ Strman.get vm.strings j = some x := by
  obtain ⟨_, _, j, e⟩ := hi
  have hk := i.cells a c ha
  cases c with
  | tab t => cases e
  | clo b r l => cases e
  | atom o =>
    have e : o = .str j x := e
    subst e
    exact ⟨j, rfl, hk⟩

theorem In.store {v : Obj} {x : Bytes} {ws : List Obj} (g : Good K) (h : In K vm0 ρ0 p r s vm t) (hw : r.ws = v :: .str 0 x :: ws) :
    ∃ vm', gstore vm = .ok vm' ∧ vm'.strings = vm.strings ∧ In K vm0 ρ0 p { r with ws := ws, last := some x } (withGlobal x v s) vm' t := by
  obtain ⟨ρ, as, h, hsc, hside⟩ := h
  rw [hw] at h
  have g' := good_upTo g r.nf
  obtain ⟨a, b, as', c, d, rfl, rs, h1, h2, h3, h4, hst⟩ := peek_two g' h
  obtain ⟨j, hj, hjs⟩ := str_cell h.core.inv h3 h4
  have p1 := (peek_at g' (vm := vm) (i := 0) (by rw [hst]; rfl) h1).1
  have p2 : VM.peek vm 2 = .ok (objOf b d) := (peek_at g' (vm := vm) (i := 1) (by rw [hst]; rfl) h3).2.2
  simp only [Nat.zero_add, Nat.cast_one] at p1
  have e : gstore vm = .ok { vm with stack := as' ++ vm0.stack, gsyms := FMap.set vm.gsyms j a } := by
    unfold gstore
    rw [need_of g' (by rw [hst]; simp; omega), p2, Res.ok_bind, hj]
    simp only
    rw [p1, Res.ok_bind]
    unfold popN
    rw [hst]
    rfl
  have iv : VInv { vm with stack := as' ++ vm0.stack, gsyms := FMap.set vm.gsyms j a } := by
    have := gstore_out (C := fun _ => True) h.core.inv
    rw [e] at this
    exact this.1
  refine ⟨_, e, rfl, ρ, as', ?_, hsc, ?_⟩
  · exact {
      core := by
        refine h.core.mono iv h.core.ready rfl (fun _ _ h => h) (Evo.refl _) (List.prefix_refl _) h.core.len h.core.nodup h.core.low (fun l a t d k1 k2 k3 => .inl ⟨k1, k2, k3⟩) ?_
        intro y i hy
        have hys : Strman.get vm.strings i = some y := by
          unfold Strman.get
          rw [h.core.strs y i hy]
          rfl
        show (∀ b, FMap.get (FMap.set vm.gsyms j a) i = some b → Rep ρ vm.heap _ b) ∧ (FMap.get (FMap.set vm.gsyms j a) i = none → _)
        by_cases hyx : y = x
        · subst hyx
          have := (id_inj h.core.inv.strings hjs hys).mpr rfl
          subst this
          rw [FMap.get_set_self, globalVal_self]
          refine ⟨?_, fun h => by cases h⟩
          rintro _ ⟨⟩
          exact ⟨c, h1, h2⟩
        · have hij : i ≠ j := fun e => hyx ((id_inj h.core.inv.strings hys hjs).mp e)
          rw [FMap.get_set, if_neg hij, globalVal_ne hyx]
          exact h.core.globals y i hy
      sc := h.sc.evo h.core.inv iv (Evo.refl _) (List.prefix_refl _) rfl rfl
      pc := h.pc
      stack := rfl
      reps := rs
      rest := h.rest
      tail := h.tail
      depth := h.depth
      evo := h.evo
      pre := h.pre
      floor := h.floor }
  · refine ⟨hside.var, ?_⟩
    rintro _ ⟨⟩
    refine ⟨j, a, hjs, FMap.get_set_self .., ?_⟩
    rw [globalVal_self]
    exact ⟨c, h1, h2⟩

/-- A variable whose object is known is loaded. -/
theorem In.loadAny {x : Bytes} {ws : List Obj} (g : Good K) (h : In K vm0 ρ0 p r s vm t) (hw : r.ws = .str 0 x :: ws)
    (hx : ∀ ρ, Core (upTo K r.nf) ρ s vm → Side ρ r s vm t → ∃ i b, Strman.get vm.strings i = some x ∧ FMap.get vm.gsyms i = some b ∧ Rep ρ vm.heap (Lang.globalVal x s) b) :
    ∃ vm', gload vm = .ok vm' ∧ vm'.strings = vm.strings ∧ In K vm0 ρ0 p { r with ws := Lang.globalVal x s :: ws } s vm' t := by
  obtain ⟨ρ, as, h, hsc, hside⟩ := h
  rw [hw] at h
  have g' := good_upTo g r.nf
  cases hr : h.reps with
  | @cons _ a _ as' r0 rs =>
    obtain ⟨c, h3, h4⟩ := r0
    have hst := h.stack
    obtain ⟨j, hj, hjs⟩ := str_cell h.core.inv h3 h4
    obtain ⟨i, b, k1, k2, k3⟩ := hx ρ h.core hside
    have := (id_inj h.core.inv.strings hjs k1).mpr rfl
    subst this
    have p2 : VM.peek vm 1 = .ok (objOf a c) := (peek_at g' (vm := vm) (i := 0) (by rw [hst]; rfl) h3).2.2
    have e : gload vm = .ok { vm with stack := b :: (as' ++ vm0.stack) } := by
      unfold gload
      rw [need_of g' (by rw [hst]; simp; omega), p2, Res.ok_bind, hj]
      simp only
      rw [k2]
      simp only
      unfold popN VM.pushAddr
      rw [hst]
      rfl
    have iv : VInv { vm with stack := b :: (as' ++ vm0.stack) } := by
      have := (h.core.inv.popN 1).pushAddr (a := b) k3.live
      unfold popN VM.pushAddr at this
      rw [hst] at this
      exact this
    refine ⟨_, e, rfl, ρ, b :: as', ?_, hsc, ⟨hside.var, hside.last⟩⟩
    exact {
      core := { h.core with inv := iv, ready := h.core.ready, base := h.core.base, strs := h.core.strs, low := h.core.low, things := h.core.things, globals := h.core.globals }
      sc := by
        have := h.sc
        rw [hsc] at this ⊢
        exact this
      pc := h.pc
      stack := rfl
      reps := .cons k3 rs
      rest := h.rest
      tail := h.tail
      depth := h.depth
      evo := h.evo
      pre := h.pre
      floor := h.floor }

theorem In.load {x : Bytes} {ws : List Obj} (g : Good K) (h : In K vm0 ρ0 p r s vm t) (hw : r.ws = .str 0 x :: ws) (hx : r.last = some x) :
    ∃ vm', gload vm = .ok vm' ∧ vm'.strings = vm.strings ∧ In K vm0 ρ0 p { r with ws := Lang.globalVal x s :: ws } s vm' t :=
  h.loadAny g hw fun _ _ hside => hside.last x hx

theorem tabPut_frame {x k v : Obj} {u : Unit} (h : Lang.tabPut x k v s = .ok u s') : s'.globals = s.globals ∧ s'.scope = s.scope := by
  cases x with
  | tab l =>
    cases hs : s.store[l]? with
    | none => rw [show Lang.tabPut (.tab l) k v s = .odd from bind_odd (look_none hs)] at h; cases h
    | some th =>
      cases th with
      | fn ps b env => rw [show Lang.tabPut (.tab l) k v s = .odd from bind_eq (look_some hs)] at h; cases h
      | host n env => rw [show Lang.tabPut (.tab l) k v s = .odd from bind_eq (look_some hs)] at h; cases h
      | tab es =>
        by_cases hkey : isKey k = true
        · by_cases hk : (Lang.sameKind k k && es.all (fun e => Lang.sameKind k e.1)) = true
          · rw [tabPut_eq (v := v) hs hkey hk] at h
            unfold putOut at h
            split at h
            · cases h; exact ⟨rfl, rfl⟩
            · split at h
              · cases h
              · split at h
                · cases h; exact ⟨rfl, rfl⟩
                · cases h
            · cases h; exact ⟨rfl, rfl⟩
          · have ho : Lang.tabPut (.tab l) k v s = .odd := by
              refine (bind_eq (look_some hs)).trans ?_
              simp only
              rw [if_pos hkey, if_neg hk]
              rfl
            rw [ho] at h
            cases h
        · have ho : Lang.tabPut (.tab l) k v s = .err .type := by
            refine (bind_eq (look_some hs)).trans ?_
            simp only
            rw [if_neg hkey]
            rfl
          rw [ho] at h
          cases h
  | _ => cases h

/-- The strings and numbers of a command are those of C. -/
def Fine : Cmd → Prop
  | .name x => Obj.CStr (ascii x)
  | .temp x => Obj.CStr (ascii x)
  | .int v => I32 v
  | .addNbr id _ _ _ => id < 65536
  | _ => True

theorem bindL_ok {α β : Type} {x : Lang.Ev α} {f : α → Lang.Ev β} {s s' : St} {b : β} (h : (x >>= f) s = .ok b s') : ∃ a s1, x s = .ok a s1 ∧ f a s1 = .ok b s' := by
  cases hx : x s with
  | ok a s1 => rw [bind_eq hx] at h; exact ⟨a, s1, rfl, h⟩
  | odd => rw [bind_odd hx] at h; cases h
  | ret v s1 =>
    have : (x >>= f) s = .ret v s1 := by show (match x s with | .ok a s => f a s | .ret v s => .ret v s | .err e => .err e | .odd => .odd | .time => .time) = _; rw [hx]
    rw [this] at h
    cases h
  | err e =>
    have : (x >>= f) s = .err e := by show (match x s with | .ok a s => f a s | .ret v s => .ret v s | .err e => .err e | .odd => .odd | .time => .time) = _; rw [hx]
    rw [this] at h
    cases h
  | time =>
    have : (x >>= f) s = .time := by show (match x s with | .ok a s => f a s | .ret v s => .ret v s | .err e => .err e | .odd => .odd | .time => .time) = _; rw [hx]
    rw [this] at h
    cases h

theorem reg_put {id : Obj} (e : Lang.reg id .put r s = .ok r' s') : ∃ v k x ws, r.ws = v :: k :: x :: ws ∧ Lang.tabPut x k v s = .ok () s' ∧ r' = { r with ws := ws } := by
  obtain ⟨t, ws, nf, last⟩ := r
  rcases ws with _ | ⟨v, _ | ⟨k, _ | ⟨x, ws⟩⟩⟩
  · cases e
  · cases e
  · cases e
  · obtain ⟨u, s1, e1, e2⟩ := bindL_ok e
    cases e2
    exact ⟨v, k, x, ws, rfl, e1, rfl⟩

theorem reg_store {id : Obj} (e : Lang.reg id .store r s = .ok r' s') : ∃ v x ws, r.ws = v :: .str 0 x :: ws ∧ s' = withGlobal x v s ∧ r' = { r with ws := ws, last := some x } := by
  obtain ⟨t, ws, nf, last⟩ := r
  rcases ws with _ | ⟨v, _ | ⟨k, ws⟩⟩
  · cases e
  · cases e
  · cases k with
    | str i x =>
      cases i with
      | zero => cases e; exact ⟨v, x, ws, rfl, rfl, rfl⟩
      | succ i => cases e
    | _ => cases e

theorem reg_load {id : Obj} (e : Lang.reg id .load r s = .ok r' s') :
    ∃ x ws, r.ws = .str 0 x :: ws ∧ r.last = some x ∧ s' = s ∧ r' = { r with ws := Lang.globalVal x s :: ws } := by
  obtain ⟨t, ws, nf, last⟩ := r
  rcases ws with _ | ⟨k, ws⟩
  · cases e
  · cases k with
    | str i x =>
      cases i with
      | zero =>
        have e : (if last = some x then Lang.Out.ok { t := t, ws := Lang.globalVal x s :: ws, nf := nf, last := last } s else .odd) = .ok r' s' := e
        by_cases h : last = some x
        · rw [if_pos h] at e
          cases e
          exact ⟨x, ws, rfl, h, rfl, rfl⟩
        · rw [if_neg h] at e
          cases e
      | succ i => cases e
    | _ => cases e

/-! ### The table of neighbors -/

/-- The C variable is not used any more. -/
theorem In.forget (h : In K vm0 ρ0 p r s vm t) (t' : Nat) : In K vm0 ρ0 p { r with t := none } s vm t' := by
  obtain ⟨ρ, as, h, hsc, hside⟩ := h
  exact ⟨ρ, as, h, hsc, ⟨by rintro v ⟨⟩, hside.last⟩⟩

/-- The value on top of the stack. -/
theorem In.top {v : Obj} {ws : List Obj} (g : Good K) (h : In K vm0 ρ0 p r s vm t) (hw : r.ws = v :: ws) :
    ∃ a c ρ, peekAddr vm 1 = .ok a ∧ peek vm 1 = .ok (objOf a c) ∧ Img ρ v (objOf a c) ∧ In K vm0 ρ0 p { r with t := some v } s vm a := by
  obtain ⟨ρ, as, k, hsc, hside⟩ := h
  have k0 := k
  rw [hw] at k
  cases hr : k.reps with
  | @cons _ a _ as' r0 rs =>
    obtain ⟨cl, h1, h2⟩ := r0
    have hp := peek_at (good_upTo g r.nf) (vm := vm) (i := 0) (by rw [k.stack]; rfl) h1
    refine ⟨a, cl, ρ, hp.1, hp.2.2, h2, ρ, _, k0, hsc, ⟨?_, hside.last⟩⟩
    rintro _ ⟨⟩
    exact ⟨cl, h1, h2⟩

theorem In.pop {v : Obj} {ws : List Obj} (h : In K vm0 ρ0 p r s vm t) (hw : r.ws = v :: ws) : In K vm0 ρ0 p { r with ws := ws } s (VM.pop vm) t := by
  obtain ⟨ρ, as, k, hsc, hside⟩ := h
  rw [hw] at k
  cases hr : k.reps with
  | @cons _ a _ as' r0 rs =>
    have hst : vm.stack = a :: (as' ++ vm0.stack) := k.stack
    have e : VM.pop vm = { vm with stack := as' ++ vm0.stack } := by
      unfold VM.pop popN
      rw [hst]
      rfl
    have iv : VInv { vm with stack := as' ++ vm0.stack } := by
      have := k.core.inv.popN 1
      unfold popN at this
      rw [hst] at this
      exact this
    rw [e]
    refine ⟨ρ, as', ?_, hsc, ⟨hside.var, hside.last⟩⟩
    exact {
      core := { k.core with inv := iv, ready := k.core.ready, base := k.core.base, strs := k.core.strs, low := k.core.low, things := k.core.things, globals := k.core.globals }
      sc := by
        have := k.sc
        rw [hsc] at this ⊢
        exact this
      pc := k.pc
      stack := rfl
      reps := rs
      rest := k.rest
      tail := k.tail
      depth := k.depth
      evo := k.evo
      pre := k.pre
      floor := k.floor }

/-- A variable of the program that has a value is loaded. -/
theorem In.loadK {x : Bytes} {i : Nat} {ws : List Obj} (g : Good K) (h : In K vm0 ρ0 p r s vm t) (hw : r.ws = .str 0 x :: ws) (hx : FMap.get K.strings x = some i)
    (hn : Lang.globalVal x s ≠ .nil) :
    ∃ vm', gload vm = .ok vm' ∧ vm'.strings = vm.strings ∧ In K vm0 ρ0 p { r with ws := Lang.globalVal x s :: ws } s vm' t := by
  refine h.loadAny g hw fun ρ hc _ => ?_
  obtain ⟨g1, g2⟩ := hc.globals x i hx
  cases hg : FMap.get vm.gsyms i with
  | none => exact absurd (g2 hg) hn
  | some a =>
    refine ⟨i, a, ?_, hg, g1 a hg⟩
    unfold Strman.get
    rw [hc.strs x i hx]
    rfl

/-- Reading a table. -/
theorem In.get {k x v : Obj} {ws : List Obj} (g : Good K) (h : In K vm0 ρ0 p r s vm t) (hw : r.ws = k :: x :: ws) (he : Lang.tabGet x k s = .ok v s') :
    s' = s ∧ ∃ vm', tget K.E vm = .ok vm' ∧ vm'.strings = vm.strings ∧ In K vm0 ρ0 p { r with ws := v :: ws } s vm' t := by
  have hv := h.inv
  obtain ⟨ρ, as, h, hsc, hside⟩ := h
  rw [hw] at h
  have g' := good_upTo g r.nf
  obtain ⟨a, b, as', c, d, rfl, rs, h1, h2, h3, h4, hst⟩ := peek_two g' h
  have key := tget_core (K := upTo K r.nf) g'.law h.core hst h1 h2 h3 h4
  rw [he] at key
  have hnext : ∀ (ws' : List Obj) (bs : List Nat), VInv { vm with stack := bs ++ vm0.stack } → List.Forall₂ (fun w a => Rep ρ vm.heap w a) ws' bs →
      In K vm0 ρ0 p { r with ws := ws' } s { vm with stack := bs ++ vm0.stack } t := by
    intro ws' bs iv hrep
    refine ⟨ρ, bs, ?_, hsc, ⟨hside.var, hside.last⟩⟩
    exact {
      core := { h.core with inv := iv, ready := h.core.ready, base := h.core.base, strs := h.core.strs, low := h.core.low, things := h.core.things, globals := h.core.globals }
      sc := by
        have := h.sc
        rw [hsc] at this ⊢
        exact this
      pc := h.pc
      stack := rfl
      reps := hrep
      rest := h.rest
      tail := h.tail
      depth := h.depth
      evo := h.evo
      pre := h.pre
      floor := h.floor }
  have iv : VInv { vm with stack := as' ++ vm0.stack } := by
    have := hv.popN 2
    unfold popN at this
    rw [hst] at this
    exact this
  obtain ⟨rfl, ⟨e, k1, k2⟩ | ⟨rfl, k1⟩⟩ := key
  · exact ⟨rfl, _, k1, rfl, hnext (v :: ws) (e :: as') (iv.pushAddr k2.live) (.cons k2 rs)⟩
  · exact ⟨rfl, _, k1, rfl, (hnext ws as' iv rs).atom (v := .nil) trivial (fun _ _ => rfl)⟩

/-- A name on the stack. -/
theorem In.named {x : String} (h : In K vm0 ρ0 p r s vm t) (hl : vm.strings.id2str.length ≤ 65533) (hx : Obj.CStr (ascii x)) :
    ∃ vm', pushName x vm = .ok vm' ∧ vm'.strings.id2str.length ≤ vm.strings.id2str.length + 1 ∧ In K vm0 ρ0 p { r with ws := .str 0 (ascii x) :: r.ws } s vm' t := by
  obtain ⟨sm, id, h1, h2, h3⟩ := h.string (b := true) hl hx
  refine ⟨_, ?_, ?_, h3⟩
  · unfold pushName
    rw [h1, Res.ok_bind]
    rfl
  · unfold pushS
    split <;> exact h2

theorem In.again_var {v : Obj} (h : In K vm0 ρ0 p r s vm t) (hw : r.t = some v) : In K vm0 ρ0 p { r with ws := v :: r.ws } s (pushAddr vm t) t :=
  h.again (v := v) (a := t) fun _ _ _ k => k.var v hw

theorem nbrTable_ok {v : Obj} (e : Lang.nbrTable s = .ok v s') : s' = s ∧ ∃ l, v = .tab l ∧ Lang.globalVal (ascii "neighbors") s = .tab l := by
  unfold Lang.nbrTable at e
  cases hg : Lang.globalVal (ascii "neighbors") s with
  | tab l =>
    rw [hg] at e
    cases e
    exact ⟨rfl, l, rfl, rfl⟩
  | _ => rw [hg] at e; cases e

/-- Up to the table `neighbors` on top of the stack. -/
theorem In.neighbors {i l : Nat} (g : Good K) (h : In K vm0 ρ0 p r s vm t) (hk : FMap.get K.strings (ascii "neighbors") = some i) (hl : vm.strings.id2str.length ≤ 65533)
    (hg : Lang.globalVal (ascii "neighbors") s = .tab l) :
    ∃ vm1 vm2 a b, vm.state = .ready ∧ pushName "neighbors" vm = .ok vm1 ∧ gload vm1 = .ok vm2 ∧ peek vm2 1 = .ok (.tab b) ∧ peekAddr vm2 1 = .ok a ∧
      vm2.strings.id2str.length ≤ vm.strings.id2str.length + 1 ∧ In K vm0 ρ0 p { r with t := some (.tab l), ws := .tab l :: r.ws } s vm2 a := by
  have hr : vm.state = .ready := by
    obtain ⟨ρ, as, h, _⟩ := h
    exact h.core.ready
  obtain ⟨vm1, k1, k2, k3⟩ := h.named (x := "neighbors") hl (by decide +kernel)
  obtain ⟨vm2, k4, k5, k6⟩ := k3.loadK g rfl hk (by rw [hg]; simp)
  rw [hg] at k6
  obtain ⟨a, c, ρ, k7, k8, ⟨b, _, k9⟩, k10⟩ := k6.top g rfl
  exact ⟨vm1, vm2, a, b, hr, k1, k4, by rw [k8, k9], k7, by rw [k5]; exact k2, k10⟩

theorem In.nbrReset {i : Nat} (g : Good K) (h : In K vm0 ρ0 p r s vm t) (hk : FMap.get K.strings (ascii "neighbors") = some i) (hl : vm.strings.id2str.length + 2 ≤ 65534)
    (e : Lang.nbrReset s = .ok () s') :
    ∃ vm', VM.nbrReset K.E vm = .ok vm' ∧ vm'.strings.id2str.length ≤ vm.strings.id2str.length + 2 ∧ In K vm0 ρ0 p { r with t := none } s' vm' t := by
  obtain ⟨v, s1, e1, e2⟩ := bindL_ok e
  obtain ⟨rfl, l, rfl, hg⟩ := nbrTable_ok e1
  obtain ⟨m, s2, e3, e4⟩ := bindL_ok e2
  cases e3
  obtain ⟨vm1, vm2, a, b, k0, k1, k2, k3, k4, k5, k6⟩ := h.neighbors g hk (by omega) hg
  obtain ⟨vm3, k7, k8, k9⟩ := k6.named (x := "poses") (by omega) (by decide +kernel)
  obtain ⟨vm4, k10, k11, k12⟩ := k9.table.put (r' := { r with t := some (.tab l) }) g rfl ⟨rfl, rfl, rfl, rfl⟩ e4 (tabPut_frame e4)
  refine ⟨vm4, ?_, ?_, k12.forget t⟩
  · unfold VM.nbrReset
    rw [if_neg (by simp [k0]), k1, Res.ok_bind, k2, Res.ok_bind, k3, Res.ok_bind]
    simp only
    rw [k7, Res.ok_bind]
    exact k10
  · rw [k11]
    show vm3.strings.id2str.length ≤ _
    omega

theorem In.nbrField {x : String} {w l : Nat} (g : Good K) (h : In K vm0 ρ0 p r s vm t) (ht : r.t = some (.tab l)) (hl : vm.strings.id2str.length ≤ 65533) (hx : Obj.CStr (ascii x))
    (e : Lang.tabPut (.tab l) (.str 0 (ascii x)) (.flt (ofBits w)) s = .ok () s') :
    ∃ vm', VM.nbrField K.E t x w vm = .ok vm' ∧ vm'.strings.id2str.length ≤ vm.strings.id2str.length + 1 ∧ In K vm0 ρ0 p r s' vm' t := by
  obtain ⟨vm1, k1, k2, k3⟩ := (h.again_var ht).named (x := x) hl hx
  have k4 := k3.atom (v := .flt (ofBits w)) trivial (fun _ _ => rfl)
  obtain ⟨vm2, k5, k6, k7⟩ := k4.put (r' := r) g rfl ⟨rfl, rfl, rfl, rfl⟩ e (tabPut_frame e)
  refine ⟨vm2, ?_, ?_, k7⟩
  · unfold VM.nbrField
    rw [k1, Res.ok_bind]
    exact k5
  · rw [k6]
    exact k2

theorem In.nbrEntry {id d a e : Nat} {q : Obj} {ws : List Obj} (g : Good K) (h : In K vm0 ρ0 p r s vm t) (hw : r.ws = q :: ws) (hid : id < 65536)
    (hl : vm.strings.id2str.length + 3 ≤ 65534) (he : Lang.nbrEntry q id d a e s = .ok () s') :
    ∃ vm' t', VM.nbrEntry K.E id d a e vm = .ok vm' ∧ vm'.strings.id2str.length ≤ vm.strings.id2str.length + 3 ∧ In K vm0 ρ0 p { r with t := none, ws := ws } s' vm' t' := by
  obtain ⟨l, s1, e1, he⟩ := bindL_ok he
  cases e1
  obtain ⟨_, s2, e2, he⟩ := bindL_ok he
  obtain ⟨_, s3, e3, he⟩ := bindL_ok he
  obtain ⟨_, s4, e4, e5⟩ := bindL_ok he
  have h1 := h.atom (v := .int (id : Int)) (by show I32 _; unfold I32; omega) (fun _ _ => rfl)
  have h2 := h1.var
  obtain ⟨vm1, k1, k2, k3⟩ := h2.nbrField (x := "distance") (w := d) g rfl (by show vm.strings.id2str.length ≤ _; omega) (by decide +kernel) e2
  have k2 : vm1.strings.id2str.length ≤ vm.strings.id2str.length + 1 := k2
  obtain ⟨vm2, k4, k5, k6⟩ := k3.nbrField (x := "azimuth") (w := a) g rfl (by omega) (by decide +kernel) e3
  obtain ⟨vm3, k7, k8, k9⟩ := k6.nbrField (x := "elevation") (w := e) g rfl (by omega) (by decide +kernel) e4
  have k10 := k9.again_var rfl
  obtain ⟨vm4, j1, j2, j3⟩ := k10.put (r' := { r with t := some (.tab s.store.length), ws := ws }) g (by show _ :: _ :: r.ws = _; rw [hw]) ⟨rfl, rfl, rfl, rfl⟩ e5 (tabPut_frame e5)
  refine ⟨vm4, t, ?_, ?_, j3.forget t⟩
  · unfold VM.nbrEntry
    exact Res.bind_eq_ok.mpr ⟨vm1, k1, Res.bind_eq_ok.mpr ⟨vm2, k4, Res.bind_eq_ok.mpr ⟨vm3, k7, j1⟩⟩⟩
  · rw [j2]
    show vm3.strings.id2str.length ≤ _
    omega

theorem In.nbrData {l : Nat} {v : Obj} {ws : List Obj} (g : Good K) (h : In K vm0 ρ0 p r s vm t) (ht : r.t = some (.tab l)) (hw : r.ws = .str 0 (ascii "poses") :: .tab l :: ws)
    (hl : vm.strings.id2str.length ≤ 65533) (he : Lang.nbrData (.tab l) s = .ok v s') :
    ∃ vm1 vm2 t' o, VM.tget K.E vm = .ok vm1 ∧ VM.nbrData K.E t vm1 = .ok vm2 ∧ vm2.strings.id2str.length ≤ vm.strings.id2str.length + 1 ∧
      In K vm0 ρ0 p { r with t := o, ws := v :: ws } s' vm2 t' := by
  obtain ⟨q, s1, e1, he2⟩ := bindL_ok he
  obtain ⟨rfl, vm1, k1, k2, k3⟩ := h.get g hw e1
  clear he
  have he := he2
  obtain ⟨a, c, ρ, k4, k5, k6, k7⟩ := k3.top g rfl
  by_cases hq : q = .nil
  · subst hq
    rw [if_pos rfl] at he
    obtain ⟨m, s2, e3, he⟩ := bindL_ok he
    cases e3
    obtain ⟨_, s3, e4, he⟩ := bindL_ok he
    cases he
    have k6 : objOf a c = .nil := k6
    have h1 := (k3.pop rfl).again_var ht
    obtain ⟨vm2, j1, j2, j3⟩ := h1.named (x := "poses") (by show (VM.pop vm1).strings.id2str.length ≤ _; unfold VM.pop; split <;> (show vm1.strings.id2str.length ≤ _; rw [k2]; exact hl)) (by decide +kernel)
    have j2 : vm2.strings.id2str.length ≤ vm.strings.id2str.length + 1 := by
      have : (pushAddr (VM.pop vm1) t).strings = vm.strings := by
        show (VM.pop vm1).strings = _
        unfold VM.pop
        split <;> exact k2
      rw [this] at j2
      exact j2
    obtain ⟨b, _, _, j4, _, _, j5⟩ := j3.table.top g rfl
    obtain ⟨vm3, j6, j7, j8⟩ := j5.put (r' := { r with t := some (.tab s1.store.length), ws := ws }) g rfl ⟨rfl, rfl, rfl, rfl⟩ e4 (tabPut_frame e4)
    have j9 := j8.again_var rfl
    refine ⟨vm1, pushAddr vm3 b, b, _, k1, ?_, ?_, j9⟩
    · unfold VM.nbrData
      rw [k5, Res.ok_bind, k6]
      simp only
      rw [j1, Res.ok_bind, j4, Res.ok_bind, j6, Res.ok_bind]
      rfl
    · show vm3.strings.id2str.length ≤ _
      rw [j7]
      exact j2
  · rw [if_neg hq] at he
    cases he
    refine ⟨vm1, vm1, t, r.t, k1, ?_, by rw [k2]; omega, k3⟩
    unfold VM.nbrData
    rw [k5, Res.ok_bind]
    cases v with
    | nil => exact absurd rfl hq
    | tab l => obtain ⟨_, _, e⟩ := k6; rw [e]; rfl
    | clo l => obtain ⟨_, _, e⟩ := k6; rw [e]; rfl
    | str j x => obtain ⟨_, _, _, e⟩ := k6; rw [e]; rfl
    | int v => rw [show objOf a c = _ from k6]; rfl
    | flt v => rw [show objOf a c = _ from k6]; rfl
    | user v => rw [show objOf a c = _ from k6]; rfl

theorem In.nbrAdd {i id d a e : Nat} (g : Good K) (h : In K vm0 ρ0 p r s vm t) (hk : FMap.get K.strings (ascii "neighbors") = some i) (hid : id < 65536)
    (hl : vm.strings.id2str.length + 6 ≤ 65534) (he : Lang.nbrAdd id d a e s = .ok () s') :
    ∃ vm' t', VM.nbrAdd K.E id d a e vm = .ok vm' ∧ vm'.strings.id2str.length ≤ vm.strings.id2str.length + 6 ∧ In K vm0 ρ0 p { r with t := none } s' vm' t' := by
  obtain ⟨v, s1, e1, he⟩ := bindL_ok he
  obtain ⟨rfl, l, rfl, hg⟩ := nbrTable_ok e1
  obtain ⟨q, s2, e3, e4⟩ := bindL_ok he
  obtain ⟨vm1, vm2, b, b', k0, k1, k2, k3, k4, k5, k6⟩ := h.neighbors g hk (by omega) hg
  obtain ⟨vm3, k7, k8, k9⟩ := k6.named (x := "poses") (by omega) (by decide +kernel)
  obtain ⟨vm4, vm5, t', o, j1, j2, j3, j4⟩ := k9.nbrData g rfl rfl (by omega) e3
  obtain ⟨vm6, t2, j5, j6, j7⟩ := j4.nbrEntry g rfl hid (by omega) e4
  refine ⟨vm6, t2, ?_, by omega, j7⟩
  unfold VM.nbrAdd
  rw [if_neg (by simp [k0]), k1, Res.ok_bind, k2, Res.ok_bind, k3, Res.ok_bind]
  simp only
  rw [k4, Res.ok_bind, k7, Res.ok_bind, j1, Res.ok_bind, j2, Res.ok_bind]
  exact j5

/-- One command. -/
theorem In.cmd (g : Good K) {robot : Nat} (hrob : robot < 65536) (h : In K vm0 ρ0 p r s vm t) (c : Cmd) (hc : Fine c) (hk : c.nbr = true → ∃ i, FMap.get K.strings (ascii "neighbors") = some i)
    (hl : vm.strings.id2str.length + c.names ≤ 65534) (hn : r.nf < 65536) (e : Lang.reg (.int (robot : Int)) c r s = .ok r' s') :
    ∃ vm' t', VM.cmd K.E robot c (vm, t) = .ok (vm', t') ∧ In K vm0 ρ0 p r' s' vm' t' ∧ vm'.strings.id2str.length ≤ vm.strings.id2str.length + c.names ∧ r'.nf ≤ r.nf + 1 := by
  cases c with
  | name x =>
    cases e
    obtain ⟨sm, id, h1, h2, h3⟩ := h.string (b := true) (Nat.le_of_succ_le_succ hl) hc
    refine ⟨_, t, ?_, h3, ?_, by simp⟩
    · simp only [VM.cmd, h1, Res.ok_bind]
      rfl
    · unfold pushS
      split <;> exact h2
  | temp x =>
    cases e
    obtain ⟨sm, id, h1, h2, h3⟩ := h.string (b := false) (Nat.le_of_succ_le_succ hl) hc
    refine ⟨_, t, ?_, h3, ?_, by simp⟩
    · simp only [VM.cmd, h1, Res.ok_bind]
      rfl
    · unfold pushS
      split <;> exact h2
  | func =>
    cases e
    exact ⟨_, t, rfl, h.func hn, le_refl _, le_refl _⟩
  | table =>
    cases e
    exact ⟨_, t, rfl, h.table, le_refl _, Nat.le_succ _⟩
  | var =>
    cases e
    exact ⟨_, _, rfl, h.var, le_refl _, Nat.le_succ _⟩
  | top =>
    simp only [Lang.reg] at e
    cases hw : r.ws with
    | nil => rw [hw] at e; cases e
    | cons v ws =>
      rw [hw] at e
      cases e
      obtain ⟨ρ, as, k, hsc, hside⟩ := h
      rw [hw] at k
      cases hr : k.reps with
      | @cons _ a _ as' r0 rs =>
        obtain ⟨cl, h1, h2⟩ := r0
        have hp : peekAddr vm 1 = .ok a := (peek_at (good_upTo g r.nf) (vm := vm) (i := 0) (by rw [k.stack]; rfl) h1).1
        refine ⟨vm, a, ?_, ⟨ρ, _, k, hsc, ⟨?_, hside.last⟩⟩, le_refl _, Nat.le_succ _⟩
        · simp only [VM.cmd, hp, Res.ok_bind]
          rfl
        · rintro _ ⟨⟩
          exact ⟨cl, h1, h2⟩
  | push =>
    simp only [Lang.reg] at e
    cases hw : r.t with
    | none => rw [hw] at e; cases e
    | some v =>
      rw [hw] at e
      cases e
      have h2 := h.again (v := v) (a := t) fun ρ as _ k => k.var v hw
      rw [hw] at h2
      exact ⟨_, t, rfl, h2, le_refl _, Nat.le_succ _⟩
  | dup =>
    simp only [Lang.reg] at e
    cases hw : r.ws with
    | nil => rw [hw] at e; cases e
    | cons v ws =>
      rw [hw] at e
      cases e
      have h0 := h
      obtain ⟨ρ, as, k, hsc, hside⟩ := h
      rw [hw] at k
      cases hr : k.reps with
      | @cons _ a _ as' r0 rs =>
        have hst : vm.stack = a :: (as' ++ vm0.stack) := k.stack
        refine ⟨pushAddr vm a, t, ?_, ?_, le_refl _, Nat.le_succ _⟩
        · simp only [VM.cmd]
          unfold VM.dup
          rw [hst]
          rfl
        · rw [← hw]
          refine h0.again fun ρ2 as2 k2 _ => ?_
          rw [hw] at k2
          have hst2 := k2.stack
          cases hr2 : k2.reps with
          | @cons _ a2 _ as2' r02 rs2 =>
            rw [hst, List.cons_append] at hst2
            rw [(List.cons.inj hst2).1]
            exact r02
  | robot =>
    cases e
    refine ⟨_, t, rfl, h.atom (v := .int (robot : Int)) ?_ (fun _ _ => rfl), le_refl _, Nat.le_succ _⟩
    show I32 _
    unfold I32
    omega
  | int v =>
    cases e
    exact ⟨_, t, rfl, h.atom (v := .int v) hc (fun _ _ => rfl), le_refl _, Nat.le_succ _⟩
  | flt w =>
    cases e
    exact ⟨_, t, rfl, h.atom (v := .flt (ofBits w)) trivial (fun _ _ => rfl), le_refl _, Nat.le_succ _⟩
  | put =>
    obtain ⟨v, k, x, ws, hw, e1, rfl⟩ := reg_put e
    obtain ⟨vm', k1, k2, k3⟩ := h.put (r' := { r with ws := ws }) g hw ⟨rfl, rfl, rfl, rfl⟩ e1 (tabPut_frame e1)
    refine ⟨vm', t, ?_, k3, by rw [k2]; exact le_refl _, Nat.le_succ _⟩
    simp only [VM.cmd, k1, Res.ok_bind]
    rfl
  | store =>
    obtain ⟨v, x, ws, hw, rfl, rfl⟩ := reg_store e
    obtain ⟨vm', k1, k2, k3⟩ := h.store g hw
    refine ⟨vm', t, ?_, k3, by rw [k2]; exact le_refl _, Nat.le_succ _⟩
    simp only [VM.cmd, k1, Res.ok_bind]
    rfl
  | load =>
    obtain ⟨x, ws, hw, hx, rfl, rfl⟩ := reg_load e
    obtain ⟨vm', k1, k2, k3⟩ := h.load g hw hx
    refine ⟨vm', t, ?_, k3, by rw [k2]; exact le_refl _, Nat.le_succ _⟩
    simp only [VM.cmd, k1, Res.ok_bind]
    rfl
  | resetNbrs =>
    obtain ⟨_, s1, e1, e2⟩ := bindL_ok e
    cases e2
    obtain ⟨i, hi⟩ := hk rfl
    obtain ⟨vm', k1, k2, k3⟩ := h.nbrReset g hi hl e1
    refine ⟨vm', t, ?_, k3, k2, Nat.le_succ _⟩
    simp only [VM.cmd, k1, Res.ok_bind]
    rfl
  | addNbr id d a e' =>
    obtain ⟨_, s1, e1, e2⟩ := bindL_ok e
    cases e2
    obtain ⟨i, hi⟩ := hk rfl
    obtain ⟨vm', t', k1, k2, k3⟩ := h.nbrAdd g hi hc hl e1
    refine ⟨vm', t, ?_, k3.forget t, k2, Nat.le_succ _⟩
    simp only [VM.cmd, k1, Res.ok_bind]
    rfl

/-- Several commands. -/
theorem In.cmds (g : Good K) {robot : Nat} (hrob : robot < 65536) (cs : List Cmd) : ∀ {r r' : Regs} {s s' : St} {vm : VM} {t : Nat}, In K vm0 ρ0 p r s vm t → (∀ c ∈ cs, Fine c ∧ c.nbr = false) →
    vm.strings.id2str.length + cs.length ≤ 65533 → r.nf + cs.length ≤ 65535 → Lang.regs (.int (robot : Int)) cs r s = .ok r' s' →
    ∃ vm' t', VM.cmds K.E robot cs (vm, t) = .ok (vm', t') ∧ In K vm0 ρ0 p r' s' vm' t' := by
  induction cs with
  | nil =>
    intro r r' s s' vm t h _ _ _ e
    cases e
    exact ⟨vm, t, rfl, h⟩
  | cons c cs ih =>
    intro r r' s s' vm t h hc hl hn e
    rw [List.length_cons] at hl hn
    obtain ⟨r1, s1, e1, e2⟩ := bindL_ok e
    obtain ⟨hc1, hc2⟩ := hc c (List.mem_cons_self ..)
    have hc3 : c.names ≤ 1 := by
      cases c with
      | resetNbrs => cases hc2
      | addNbr id d a e => cases hc2
      | name x => exact le_refl _
      | temp x => exact le_refl _
      | _ => exact Nat.zero_le _
    obtain ⟨vm1, t1, k1, k2, k3, k4⟩ := h.cmd g hrob c hc1 (fun h => by rw [hc2] at h; cases h) (by omega) (by omega) e1
    obtain ⟨vm2, t2, k5, k6⟩ := ih k2 (fun c hm => hc c (List.mem_cons_of_mem _ hm)) (by omega) (by omega) e2
    refine ⟨vm2, t2, ?_, k6⟩
    simp only [VM.cmds, k1, Res.ok_bind]
    exact k5

end Buzz.Sim
