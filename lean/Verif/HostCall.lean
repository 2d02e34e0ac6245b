import Verif.Equip
import Verif.Props.VMCalls
import Verif.Session

/-
Functions of the script called from C (`buzzvm_closure_call`), on machines that are in a state of the program.
-/
namespace Buzz.VM

open Buzz.Msg Buzz.Heap

theorem closureCall_eq {E : Env} {F : CFuns} {n argc : Nat} {vm u : VM} (h : entering F argc vm = .ok u) : closureCall E F n argc vm = runAbove E F vm.rest.length n u := by
  unfold entering at h
  obtain ⟨w, h1, h2⟩ := Res.bind_eq_ok.mp h
  unfold closureCall
  rw [h1, Res.ok_bind, h2, Res.ok_bind]

end Buzz.VM

namespace Buzz.Sim

open Buzz.Msg Buzz.Heap Buzz.Props Buzz.VM
open Buzz.Lang (Ast Thing Scope Shape St Host Regs)
open Buzz.Parser (Ln)
open Buzz.Comp (CS EC Sub Loc Tabs comp bodyC)

/-! ### Other surroundings -/

/-- The same surroundings, for machines with at least `f` stacks below the current one. -/
abbrev Ctx.above (K : Ctx) (f : Nat) : Ctx := { K with floor := f }

theorem lnAt_above (K : Ctx) (f p : Nat) (l : Ln) (q : Nat) : LnAt (K.above f) p l q = LnAt K p l q := by
  cases l <;> rfl

theorem codeAt_above (K : Ctx) (f : Nat) (ls : List Ln) : ∀ p q, CodeAt (K.above f) p ls q = CodeAt K p ls q := by
  induction ls with
  | nil => intro p q; rfl
  | cons l ls ih =>
    intro p q
    simp only [CodeAt, lnAt_above, ih]

theorem placed_above (K : Ctx) (f : Nat) (news : List EC) : Placed (K.above f) news = Placed K news := by
  simp only [Placed, codeAt_above]

theorem funAt_above (K : Ctx) (f : Nat) (p : Int) (xs ps : List Bytes) (b : Ast) : FunAt (K.above f) p xs ps b = FunAt K p xs ps b := by
  simp only [FunAt, codeAt_above, placed_above]

theorem thingOk_above (K : Ctx) (f : Nat) (ρ : List Nat) (hp : Heap) (t : Thing) (c : Cell) : ThingOk (K.above f) ρ hp t c = ThingOk K ρ hp t c := by
  cases t with
  | tab es => rfl
  | fn ps b env => simp only [ThingOk, funAt_above]
  | host m env => rfl

theorem core_above {K : Ctx} {f : Nat} {ρ : List Nat} {s : St} {vm : VM} : Core (K.above f) ρ s vm ↔ Core K ρ s vm := by
  constructor
  · intro h
    exact { h with things := fun l a t c h1 h2 h3 => by rw [← thingOk_above K f]; exact h.things l a t c h1 h2 h3 }
  · intro h
    exact { h with things := fun l a t c h1 h2 h3 => by rw [thingOk_above K f]; exact h.things l a t c h1 h2 h3 }

theorem retOf_above {K : Ctx} {f : Nat} {vm0 : VM} {ρ0 : List Nat} {v : Obj} {s : St} {vm : VM} : RetOf (K.above f) vm0 ρ0 v s vm ↔ RetOf K vm0 ρ0 v s vm := by
  simp only [RetOf, core_above]

theorem good_above {K : Ctx} (g : Good K) (f : Nat) : Good (K.above f) where
  size := g.size
  funs := g.funs
  law := g.law
  cstr := g.cstr
  small := g.small
  lib := by
    intro n vs s vm ρ fr fs ra S rs m h1 h2 h3 h4 h5 h6 h7 h8 h9 h10 h11
    have := g.lib n vs s vm ρ fr fs ra S rs m h1 h2 (core_above.mp h3) h4 h5 h6 h7 h8 h9 h10 h11
    simp only [retOf_above]
    exact this

/-! ### The loop of `buzzvm_closure_call` -/

variable {K : Ctx} {G : CFuns}

theorem step_stays {E : Env} {F : CFuns} {vm : VM} (h : vm.state ≠ .ready) : VM.step E F vm = .ok vm := by
  unfold VM.step
  rw [if_pos h]

theorem Ctx.stepN_stays {vm : VM} (h : vm.state ≠ .ready) : ∀ {k : Nat} {w : VM}, K.stepN k vm = .ok w → w = vm
  | 0, w, e => by cases e; rfl
  | k + 1, w, e => by
    rw [Ctx.stepN] at e
    obtain ⟨v, e1, e2⟩ := Res.bind_eq_ok.mp e
    have := Ctx.step_ok e1
    rw [step_stays h] at this
    cases this
    exact Ctx.stepN_stays h e2

/-- Steps with more functions. -/
theorem Ctx.step_to (hU : Link.Under K.F G) {vm w : VM} (e : K.step vm = .ok w) : ({ K with F := G } : Ctx).step vm = .ok w := by
  unfold Ctx.step at e ⊢
  by_cases h : K.floor ≤ vm.rest.length
  · rw [if_pos h] at e
    rw [if_pos h]
    exact Link.step_under hU e
  · rw [if_neg h] at e
    cases e

theorem Ctx.stepN_to (hU : Link.Under K.F G) : ∀ {k : Nat} {vm w : VM}, K.stepN k vm = .ok w → ({ K with F := G } : Ctx).stepN k vm = .ok w
  | 0, _, _, e => e
  | k + 1, vm, w, e => by
    rw [Ctx.stepN] at e
    obtain ⟨v, e1, e2⟩ := Res.bind_eq_ok.mp e
    rw [Ctx.stepN, Ctx.step_to hU e1, Res.ok_bind]
    exact Ctx.stepN_to hU e2

/-- The loop ends where the steps end. -/
theorem runAbove_stops {base : Nat} (hf : K.floor = base + 1) : ∀ {k m : Nat} {vm w : VM}, K.stepN k vm = .ok w → vm.state = .ready → base < vm.rest.length →
    (w.state ≠ .ready ∨ w.rest.length ≤ base) → k ≤ m → runAbove K.E K.F base m vm = .ok w
  | 0, m, vm, w, e, hr, hb, hw, _ => by
    cases e
    rcases hw with hw | hw
    · exact absurd hr hw
    · omega
  | k + 1, 0, _, _, _, _, _, _, hm => by omega
  | k + 1, m + 1, vm, w, e, hr, hb, hw, hm => by
    rw [Ctx.stepN] at e
    obtain ⟨v, e1, e2⟩ := Res.bind_eq_ok.mp e
    rw [runAbove, Ctx.step_ok e1, Res.ok_bind]
    by_cases hv : v.state = .ready
    · rw [if_neg (by simp [hv])]
      by_cases hl : base < v.rest.length
      · rw [if_pos hl]
        exact runAbove_stops hf e2 hv hl hw (by omega)
      · rw [if_neg hl]
        cases k with
        | zero => cases e2; rfl
        | succ k =>
          rw [Ctx.stepN] at e2
          obtain ⟨u, e3, _⟩ := Res.bind_eq_ok.mp e2
          unfold Ctx.step at e3
          rw [if_neg (by omega)] at e3
          cases e3
    · rw [if_pos hv]
      cases Ctx.stepN_stays hv e2
      rfl

/-- The loop goes on as long as the steps do. -/
theorem runAbove_goes {base : Nat} (hf : K.floor = base + 1) : ∀ {k m : Nat} {vm w : VM}, K.stepN k vm = .ok w → w.state = .ready → m < k → runAbove K.E K.F base m vm = .hang
  | _, 0, _, _, _, _, _ => rfl
  | 0, m + 1, _, _, _, _, hm => by omega
  | k + 1, m + 1, vm, w, e, hw, hm => by
    rw [Ctx.stepN] at e
    obtain ⟨v, e1, e2⟩ := Res.bind_eq_ok.mp e
    rw [runAbove, Ctx.step_ok e1, Res.ok_bind]
    have hv : v.state = .ready := by
      by_cases hv : v.state = .ready
      · exact hv
      · cases Ctx.stepN_stays hv e2
        exact absurd hw hv
    rw [if_neg (by simp [hv])]
    have hl : base < v.rest.length := by
      cases k with
      | zero => omega
      | succ k =>
        rw [Ctx.stepN] at e2
        obtain ⟨u, e3, _⟩ := Res.bind_eq_ok.mp e2
        unfold Ctx.step at e3
        by_cases hc : K.floor ≤ v.rest.length
        · omega
        · rw [if_neg hc] at e3
          cases e3
    rw [if_pos hl]
    exact runAbove_goes hf e2 hw (by omega)

theorem Ctx.stepN_above {base : Nat} (hf : K.floor = base + 1) : ∀ {k : Nat} {vm w : VM}, K.stepN k vm = .ok w → stepsAbove K.E K.F base k vm = .ok w
  | 0, _, _, e => e
  | k + 1, vm, w, e => by
    rw [Ctx.stepN] at e
    obtain ⟨v, e1, e2⟩ := Res.bind_eq_ok.mp e
    unfold Ctx.step at e1
    by_cases hl : K.floor ≤ vm.rest.length
    · rw [if_pos hl] at e1
      rw [stepsAbove, if_pos (by omega), e1, Res.ok_bind]
      exact Ctx.stepN_above hf e2
    · rw [if_neg hl] at e1
      cases e1

/-- The loop with other bounds. -/
theorem runAbove_either {E : Env} {F : CFuns} {base : Nat} : ∀ {N m : Nat} {vm w : VM}, runAbove E F base N vm = .ok w → runAbove E F base m vm = .ok w ∨ runAbove E F base m vm = .hang
  | _, 0, _, _, _ => .inr rfl
  | 0, m + 1, _, _, e => by cases e
  | N + 1, m + 1, vm, w, e => by
    rw [runAbove] at e ⊢
    obtain ⟨v, e1, e2⟩ := Res.bind_eq_ok.mp e
    rw [e1, Res.ok_bind]
    by_cases hv : v.state = .ready
    · rw [if_neg (by simp [hv])] at e2 ⊢
      by_cases hl : base < v.rest.length
      · rw [if_pos hl] at e2 ⊢
        exact runAbove_either e2
      · rw [if_neg hl] at e2 ⊢
        exact .inl e2
    · rw [if_pos hv] at e2 ⊢
      exact .inl e2

theorem closureCall_either {E : Env} {F : CFuns} {argc N m : Nat} {vm w : VM} (h : closureCall E F N argc vm = .ok w) : closureCall E F m argc vm = .ok w ∨ closureCall E F m argc vm = .hang := by
  unfold closureCall at h ⊢
  obtain ⟨v, e1, e2⟩ := Res.bind_eq_ok.mp h
  obtain ⟨u, e3, e4⟩ := Res.bind_eq_ok.mp e2
  rw [e1, Res.ok_bind, e3, Res.ok_bind]
  exact runAbove_either e4

theorem run_either {E : Env} {F : CFuns} : ∀ {N m : Nat} {vm w : VM}, VM.run E F N vm = .ok w → VM.run E F m vm = .ok w ∨ VM.run E F m vm = .hang
  | _, 0, _, _, _ => .inr rfl
  | 0, m + 1, _, _, e => by cases e
  | N + 1, m + 1, vm, w, e => by
    rw [VM.run] at e ⊢
    obtain ⟨v, e1, e2⟩ := Res.bind_eq_ok.mp e
    rw [e1, Res.ok_bind]
    by_cases hv : v.state = .ready
    · rw [if_pos hv] at e2 ⊢
      exact run_either e2
    · rw [if_neg hv] at e2 ⊢
      exact .inl e2

/-! ### Calls of closures -/

/-- The machine enters a closure of the script that is called from C with the arguments `vs`. -/
theorem entering_fn (g : Good K) {F : CFuns} {ρ : List Nat} {s : St} {vm : VM} {p fn : Nat} {vs : List Obj} {bs S : List Nat} {ca : Nat} {ps : List Bytes}
    {env : List (Bytes × Obj)} {cl : List Nat} (h : Core K ρ s vm) (hpc : vm.pc = (p : Int)) (hp : p < K.code.length) (hst : vm.stack = bs ++ ca :: S)
    (rbs : List.Forall₂ (fun w a => Rep ρ vm.heap w a) vs.reverse bs) (c1 : Holds vm.heap ca (.clo true fn cl)) (hreps : List.Forall₂ (fun (e : Bytes × Obj) a => Rep ρ vm.heap e.2 a) env cl)
    (hne : env ≠ []) (hlim : vs.length < 2147483647) (hargs : vs.length = ps.length ∧ env.length + ps.length < Lang.limit) (hfn : fn < K.code.length) (hfl : K.floor ≤ vm.rest.length + 1) :
    ∃ u ra, entering F vs.length vm = .ok u ∧ Pt K u ρ fn [] { s with scope := .fn (env ++ ps.zip vs) } u ∧ u.rest = (ra :: S) :: vm.rest ∧ Holds u.heap ra (.atom (.int (p : Int))) ∧
      u.frames.tail = vm.frames ∧ Ext vm.heap u.heap ∧ u.strings = vm.strings := by
  have hbl : bs.length = vs.length := by
    have := rbs.length_eq
    rw [List.length_reverse] at this
    exact this.symm
  have i0 := h.inv
  have hat : VM.At vm vs.length (.clo true fn cl) := ⟨ca, by rw [hst, ← hbl]; simp, c1⟩
  obtain ⟨v, hins⟩ : ∃ v, insertSelf vm vs.length = .ok v := by
    unfold insertSelf
    rw [if_neg (by rw [hst]; simp; omega)]
    exact ⟨_, rfl⟩
  obtain ⟨iv, hn, hc, hdrop, hrest, hfr, hvpc, hcode, hstate, _, hnf, htake, hold⟩ := insertSelf_ok i0 hlim hat hins
  have hv : v.strings = vm.strings ∧ v.gsyms = vm.gsyms ∧ Ext vm.heap v.heap := by
    unfold insertSelf at hins
    rw [if_neg (by rw [hst]; simp; omega)] at hins
    cases hins
    exact ⟨rfl, rfl, ext_new i0.heap _⟩
  have iv' : VInv v := by
    unfold insertSelf at hins
    rw [if_neg (by rw [hst]; simp; omega)] at hins
    cases hins
    have j := i0.newobj (c := .atom .nil) trivial
    refine { j with stack := ?_ }
    intro a ha
    simp only [List.mem_append, List.mem_cons] at ha
    rcases ha with ha | ha | ha
    · exact j.stack a (List.mem_of_mem_take ha)
    · rw [ha]; exact ⟨_, holds_new i0.heap _⟩
    · exact j.stack a (List.mem_of_mem_drop ha)
  generalize hw : pushInt v (intOfU32 vs.length) = w at *
  have hw2 : w.strings = vm.strings ∧ w.gsyms = vm.gsyms ∧ Ext vm.heap w.heap := by
    rw [← hw]
    exact ⟨hv.1, hv.2.1, hv.2.2.trans (ext_new iv'.heap _)⟩
  have hcall := call_native (F := F) (sw := false) hn hlim hc
  have hcell := (iv.cells ca _ (hold _ _ c1)).2
  have hbs : vm.stack.take vs.length = bs := by rw [hst, List.take_left' hbl]
  have hS : vm.stack.drop (vs.length + 1) = S := by
    rw [hst, show bs ++ ca :: S = (bs ++ [ca]) ++ S by simp, List.drop_left' (by simp [hbl])]
  have hen : enter (popN w 1) vs.length cl false = { w with stack := [], rest := (w.heap.brk :: S) :: vm.rest, frames := ⟨cl ++ bs.reverse, false⟩ :: vm.frames, heap := (newobj w.heap (.atom (.int (p : Int)))).1 } := by
    unfold enter popN
    simp only [List.drop_drop]
    rw [show 1 + (vs.length + 2) = vs.length + 3 by omega, hdrop, htake, hbs, hS]
    simp only [pushInt, VM.push]
    rw [hvpc, hpc, hrest, hfr]
    rfl
  have hi0 : VInv { w with stack := [], rest := (w.heap.brk :: S) :: vm.rest, frames := ⟨cl ++ bs.reverse, false⟩ :: vm.frames, heap := (newobj w.heap (.atom (.int (p : Int)))).1 } := by
    rw [← hen]
    exact (iv.popN 1).enter _ _ hcell
  have hi := hi0.setPc (p := (fn : Int)) (by have := g.size; unfold I32; omega)
  rw [hen] at hcall
  have ex : Ext vm.heap (newobj w.heap (.atom (.int (p : Int)))).1 := hw2.2.2.trans (ext_new iv.heap _)
  have hra : Holds (newobj w.heap (.atom (.int (p : Int)))).1 w.heap.brk (.atom (.int (p : Int))) := holds_new iv.heap _
  generalize hu : ({ w with stack := [], rest := (w.heap.brk :: S) :: vm.rest, frames := ⟨cl ++ bs.reverse, false⟩ :: vm.frames, heap := (newobj w.heap (.atom (.int (p : Int)))).1, pc := (fn : Int) } : VM) = u at *
  have hcall : call F false w = .ok u := hcall.trans (by rw [← hu])
  have hzl : (ps.zip vs).length = ps.length := by
    rw [List.length_zip, hargs.1]
    exact min_self _
  have hcore : Core K ρ { s with scope := .fn (env ++ ps.zip vs) } u := by
    refine h.ext hi ?_ ?_ ?_ ?_ ?_ rfl rfl
    · rw [← hu]; exact hstate.trans h.ready
    · rw [← hu]; exact Prod.ext hcode hnf
    · rw [← hu]; show ∀ x i, _ → FMap.get w.strings.id2str i = _; rw [hw2.1]; exact fun _ _ h => h
    · rw [← hu]; exact ex
    · rw [← hu]; exact hw2.2.1
  refine ⟨u, w.heap.brk, ?_, ⟨ρ, [], hcore, ?_, ?_, ?_, .nil, rfl, rfl, rfl, Evo.refl _, List.prefix_refl _, ?_⟩, ?_, ?_, ?_, ?_, ?_⟩
  · unfold entering
    rw [hins, Res.ok_bind, hw]
    exact hcall
  · refine ⟨⟨?_, ?_⟩, ⟨⟨cl ++ bs.reverse, false⟩, vm.frames, ?_, ?_⟩, w.heap.brk, S, vm.rest, p, ?_, ?_, hp⟩
    · rw [List.length_append]
      have := List.length_pos_of_ne_nil hne
      omega
    · rw [List.length_append, hzl]
      exact hargs.2
    · rw [← hu]
    · have hr2 : List.Forall₂ (fun e a => Rep ρ vm.heap e.2 a) (env ++ ps.zip vs) (cl ++ bs.reverse) := by
        refine List.rel_append hreps (forall2_zip hargs.1 ?_)
        have := List.forall₂_reverse_iff.mpr rbs
        rwa [List.reverse_reverse] at this
      refine reps_evo (f := fun e : Bytes × Obj => e.2) hr2 i0.heap ?_ (List.prefix_refl _) ?_
      · rw [← hu]; exact ex.evo
      · intro a ha
        exact hi.frames ⟨cl ++ bs.reverse, false⟩ (by rw [← hu]; exact List.mem_cons_self ..) a ha
    · rw [← hu]
    · rw [← hu]; exact hra
  · rw [← hu]
  · rw [← hu]; rfl
  · rw [← hu]; exact hfl
  · rw [← hu]
  · rw [← hu]; exact hra
  · rw [← hu]; rfl
  · rw [← hu]; exact ex
  · rw [← hu]; exact hw2.1

/-- What a call from C of a closure of the script does to the machine, on top of the values at `S`. -/
structure Given (K : Ctx) (ρ : List Nat) (vm : VM) (S : List Nat) (v : Obj) (s : St) (ρ' : List Nat) (a : Nat) (vm' : VM) : Prop where
  core : Core K ρ' s vm'
  stack : vm'.stack = a :: S
  rep : Rep ρ' vm'.heap v a
  rest : vm'.rest = vm.rest
  frames : vm'.frames = vm.frames
  pc : vm'.pc = vm.pc
  evo : Evo vm.heap vm'.heap
  pre : ρ <+: ρ'

/-- **A closure of the script called from C does what the function means.** -/
theorem closureCall_sim (g : Good K) (hU : Link.Under K.F G) {ρ : List Nat} {s : St} {vm : VM} {p l : Nat} {vs : List Obj} {bs S : List Nat} {ca : Nat} {ps : List Bytes} {b : Ast}
    {env : List (Bytes × Obj)} (h : Core K ρ s vm) (hpc : vm.pc = (p : Int)) (hp : p < K.code.length) (hst : vm.stack = bs ++ ca :: S)
    (rbs : List.Forall₂ (fun w a => Rep ρ vm.heap w a) vs.reverse bs) (rc : Rep ρ vm.heap (.clo l) ca) (hsl : s.store[l]? = some (.fn ps b env)) (n : Nat) :
    (K.loose = true ∧ ∃ u k w, entering G vs.length vm = .ok u ∧ stepsAbove K.E G vm.rest.length k u = .ok w ∧ Crowded w) ∨
    match Lang.apply K.lib (Lang.exec K.host n) (.clo l) vs s with
    | .ok v s' => ∃ ρ' a vm', Given K ρ vm S v s' ρ' a vm' ∧ ∃ N, ∀ m ≥ N, closureCall K.E G m vs.length vm = .ok vm'
    | .ret _ _ => False
    | .err e => ∃ vm', vm'.state = .error ∧ vm'.error = e ∧ ∃ N, ∀ m ≥ N, closureCall K.E G m vs.length vm = .ok vm'
    | .odd => True
    | .time => ∀ m < n, closureCall K.E G m vs.length vm = .hang := by
  by_cases hlim : Lang.limit ≤ vs.length
  · refine .inr ?_
    unfold Lang.apply
    rw [if_pos hlim]
    trivial
  have hlim' : vs.length < 2147483647 := Nat.lt_of_not_le hlim
  have hbe : Lang.apply K.lib (Lang.exec K.host n) (.clo l) vs s =
      (if vs.length = ps.length ∧ env.length + ps.length < Lang.limit then Lang.inFunction (env ++ ps.zip vs) (Lang.exec K.host n b) else Lang.odd) s := by
    rw [apply_eq hlim]
    exact bind_eq (look_some hsl)
  rw [hbe]
  by_cases hargs : vs.length = ps.length ∧ env.length + ps.length < Lang.limit
  swap
  · rw [if_neg hargs]
    exact .inr trivial
  rw [if_pos hargs]
  obtain ⟨cc, c1, c2⟩ := rc
  obtain ⟨hl, cn, cr, cl, rfl⟩ := clo_cell h.inv c1 c2
  obtain ⟨fp, fl, e0, hreps, hne, hfun⟩ := h.things l ca _ _ hl hsl c1
  cases e0
  obtain ⟨fc, fo, fn, fq, k1, k2, k3, k4, rfl, k6, k7⟩ := id hfun
  have hfn : fn < K.code.length := by
    rw [codeAt_append] at k6
    obtain ⟨r, j1, j2⟩ := k6
    have := j1.le
    rw [codeAt_one] at j2
    have := j2.2
    omega
  have gf := good_above g (vm.rest.length + 1)
  obtain ⟨u, ra, q1, q2, q3, q4, q5, q6, _⟩ := entering_fn (F := G) gf (core_above.mpr h) hpc hp hst rbs c1 hreps hne hlim' hargs hfn (le_refl _)
  obtain ⟨m, hm, hsim⟩ := runOk_exec gf n fn (env.map (·.1)) ps b (env ++ ps.zip vs) { s with scope := .fn (env ++ ps.zip vs) } u ρ (by rw [funAt_above]; exact hfun) rfl
    (by rw [List.map_append, List.map_fst_zip (by rw [hargs.1])]) q2
  rcases hsim with ⟨hlo, k, w, j1, j2⟩ | hsim
  · exact .inl ⟨hlo, u, k, w, q1, Ctx.stepN_above (K := { K.above (vm.rest.length + 1) with F := G }) rfl (Ctx.stepN_to (K := K.above (vm.rest.length + 1)) hU j1), j2⟩
  refine .inr ?_
  have hur : u.state = .ready := q2.ready
  have hub : vm.rest.length < u.rest.length := by rw [q3]; simp
  have stop : ∀ k w, (K.above (vm.rest.length + 1)).stepN k u = .ok w → (w.state ≠ .ready ∨ w.rest.length ≤ vm.rest.length) → ∃ N, ∀ m ≥ N, closureCall K.E G m vs.length vm = .ok w := by
    intro k w e hw
    refine ⟨k, fun m hm => ?_⟩
    rw [closureCall_eq q1]
    exact runAbove_stops (K := { K.above (vm.rest.length + 1) with F := G }) rfl (Ctx.stepN_to (K := K.above (vm.rest.length + 1)) hU e) hur hub hw hm
  have hback : ∀ v s' w, RetOf (K.above (vm.rest.length + 1)) u ρ v s' w → ∃ ρ' a, Given K ρ vm S v { s' with scope := s.scope } ρ' a w := by
    rintro v s' w ⟨ρ', a, ra', S', rs', r1, r2, r3, r4, r5, r6, r7, r8, r9⟩
    rw [q3] at r1
    cases r1
    obtain ⟨_, _, q2⟩ := q2
    refine ⟨ρ', a, (core_above.mp r6).rescope _, r4, r7, r3, r5.trans q5, ?_, q6.evo.trans r8, r9⟩
    rw [hpc]
    exact r2 _ (held_lt q2.core.inv.heap q4) q4
  unfold Lang.inFunction
  cases hx : Lang.exec K.host n b { s with scope := .fn (env ++ ps.zip vs) } with
  | ok vs' s' =>
    rw [show Lang.exec (K.above (vm.rest.length + 1)).host n b { s with scope := .fn (env ++ ps.zip vs) } = _ from hx] at hsim
    obtain ⟨k, w, j1, j2⟩ := hsim
    obtain ⟨ρ', a, j3⟩ := hback _ _ _ j2
    exact ⟨ρ', a, w, j3, stop k w j1 (.inr (by rw [j3.rest]))⟩
  | ret v' s' =>
    rw [show Lang.exec (K.above (vm.rest.length + 1)).host n b { s with scope := .fn (env ++ ps.zip vs) } = _ from hx] at hsim
    obtain ⟨k, w, j1, j2⟩ := hsim
    obtain ⟨ρ', a, j3⟩ := hback _ _ _ j2
    exact ⟨ρ', a, w, j3, stop k w j1 (.inr (by rw [j3.rest]))⟩
  | err er =>
    rw [show Lang.exec (K.above (vm.rest.length + 1)).host n b { s with scope := .fn (env ++ ps.zip vs) } = _ from hx] at hsim
    obtain ⟨k, w, j1, j2, j3⟩ := hsim
    exact ⟨w, j2, j3, stop k w j1 (.inl (by rw [j2]; simp))⟩
  | odd => trivial
  | time =>
    rw [show Lang.exec (K.above (vm.rest.length + 1)).host n b { s with scope := .fn (env ++ ps.zip vs) } = _ from hx] at hsim
    obtain ⟨k, w, j0, j1, j2⟩ := hsim
    intro j hj
    rw [closureCall_eq q1]
    exact runAbove_goes (K := { K.above (vm.rest.length + 1) with F := G }) rfl (Ctx.stepN_to (K := K.above (vm.rest.length + 1)) hU j1) j2 (by omega)

end Buzz.Sim
