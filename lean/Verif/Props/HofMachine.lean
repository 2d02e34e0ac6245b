import Verif.HofSim

/-
Higher-order functions on the machine (C77).
-/
namespace Buzz.Props

open Buzz.VM Buzz.F32 Buzz.Msg Buzz.Heap

/-! ### Specification -/

/-- The machine `u` is `v` with another stack and, at most, another content of the objects in `own`. -/
structure Between (own : Nat → Prop) (v u : VM) : Prop where
  eq : u = { v with stack := u.stack, heap := u.heap }
  heap : ∀ a c, ¬ own a → (Holds u.heap a c ↔ Holds v.heap a c)

/-- One call of the script's function `ca` for the entry `e`: on machine `u` with `S` on the stack it is given key and value (and an accumulator), and ends on
machine `v` with the result `r`, an object of content `c`, on top of `S`.  Keys and values other than tables are what they were in the heap `h`. -/
structure CallFor (E : Env) (F : CFuns) (m : Nat) (h : Heap) (S : List Nat) (ca : Nat) (acc : Option Nat) (e : Entry3) (u v : VM) (r : Nat) (c : Cell) : Prop where
  run : closureCall E F m (2 + acc.toList.length) { u with stack := acc.toList ++ e.2.2 :: e.2.1 :: ca :: S } = .ok v
  ready : v.state = .ready
  stack : v.stack = r :: S
  rest : v.rest = u.rest
  frames : v.frames = u.frames
  pc : v.pc = u.pc
  code : v.code = u.code
  value : Holds v.heap r c
  args : ∀ a d, a = e.2.1 ∨ a = e.2.2 → (∀ t, d ≠ .tab t) → Holds h a d → Holds u.heap a d

/-- A sequence of calls, each on the machine left by the one before, with its result as accumulator if there is one. -/
inductive CallsFor (E : Env) (F : CFuns) (m : Nat) (own : Nat → Prop) (S : List Nat) (ca : Nat) (vm : VM) (a0 : Option Nat) :
    List (Entry3 × Nat × Cell) → Option Nat → VM → Prop where
  | start {u : VM} : Between own vm u → CallsFor E F m own S ca vm a0 [] a0 u
  | call {cs : List (Entry3 × Nat × Cell)} {acc : Option Nat} {e : Entry3} {u v w : VM} {r : Nat} {c : Cell} : CallsFor E F m own S ca vm a0 cs acc u →
      CallFor E F m vm.heap S ca acc e u v r c → Between own v w → CallsFor E F m own S ca vm a0 (cs ++ [(e, r, c)]) (acc.map fun _ => r) w

/-- The function called with machine `vm` has returned the object `a` to its caller; all else is as in `u`, apart from new objects. -/
structure BackWith (vm u w : VM) (a : Nat) : Prop where
  ex : ∃ f p st q, vm.frames = f :: w.frames ∧ vm.rest = (p :: st) :: w.rest ∧ Holds vm.heap p (.atom (.int q)) ∧ w.pc = q ∧ w.stack = a :: st ∧
    w.swarmstack = if f.swarm then u.swarmstack.tail else u.swarmstack
  eq : w = { u with pc := w.pc, stack := w.stack, rest := w.rest, frames := w.frames, swarmstack := w.swarmstack, heap := w.heap }
  heap : ∀ a c, Holds u.heap a c → Holds w.heap a c

/-- A call has changed the table that is being visited: it is not `t` any more after the call for one of the entries, before which everything went as
described. -/
def Disturbed (E : Env) (F : CFuns) (m : Nat) (own : Nat → Prop) (S : List Nat) (ta ca : Nat) (t : Table.Tbl (Nat × Nat)) (vm : VM) (a0 : Option Nat) : Prop :=
  ∃ cs acc e rest u v r c, Dict.entries t = cs.map (·.1) ++ e :: rest ∧ CallsFor E F m own S ca vm a0 cs acc u ∧ CallFor E F m vm.heap S ca acc e u v r c ∧
    ¬ Holds v.heap ta (.tab t)

/-- The call for one of the entries, before which everything went as described, has ended on machine `x`, which is not ready. -/
def Failed (E : Env) (F : CFuns) (m : Nat) (own : Nat → Prop) (S : List Nat) (ca : Nat) (t : Table.Tbl (Nat × Nat)) (vm : VM) (a0 : Option Nat) (x : VM) : Prop :=
  ∃ cs acc e rest u, Dict.entries t = cs.map (·.1) ++ e :: rest ∧ CallsFor E F m own S ca vm a0 cs acc u ∧
    closureCall E F m (2 + acc.toList.length) { u with stack := acc.toList ++ e.2.2 :: e.2.1 :: ca :: S } = .ok x ∧ x.state ≠ .ready

/-! ### One call -/

/-- What holds between the calls. -/
structure Mid (vm : VM) (own : Nat → Prop) (S : List Nat) (ta ca : Nat) (t : Table.Tbl (Nat × Nat)) (ref : Int) (l : List Nat) (acc : Option Nat) (u : VM) : Prop where
  inv : VInv u
  ready : u.state = .ready
  stack : u.stack = acc.toList ++ S
  free : Free own u
  tab : Holds u.heap ta (.tab t)
  clo : Holds u.heap ca (.clo true ref l)
  stays : Stays vm.heap u.heap
  rest : u.rest = vm.rest
  frames : u.frames = vm.frames
  pc : u.pc = vm.pc
  code : u.code = vm.code
  root : Rooted own u.heap S

variable {E : Env} {F : CFuns} {m : Nat} {own : Nat → Prop} {S : List Nat} {ta ca : Nat} {t : Table.Tbl (Nat × Nat)} {ref : Int} {l : List Nat} {vm : VM}

/-- The rest of what holds of the objects involved, which does not change. -/
structure Scene (vm : VM) (own : Nat → Prop) (S : List Nat) (ta ca : Nat) : Prop where
  inv : VInv vm
  tabOut : ¬ own ta
  cloOut : ¬ own ca
  caS : ca ∈ S

theorem entry_live {u : VM} (i : VInv u) (ht : Holds u.heap ta (.tab t)) {e : Entry3} (he : e ∈ Dict.entries t) : Live u.heap e.2.1 ∧ Live u.heap e.2.2 := by
  have := (i.cells _ _ ht).2 e he
  exact ⟨⟨_, this.2.2.1⟩, this.2.2.2⟩

theorem entry_child {e : Entry3} (he : e ∈ Dict.entries t) : e.2.1 ∈ children (.tab t) ∧ e.2.2 ∈ children (.tab t) := by
  constructor <;> (simp only [children, List.mem_flatMap]; exact ⟨e, he, by simp⟩)

/-- One call from C in the middle of the loop. -/
theorem one_call (hF : FOk F) (hH : FHome F) (hA : FApart F) (hK : FFirm F) (sc : Scene vm own S ta ca) {acc : Option Nat} {u v : VM}
    (g : Mid vm own S ta ca t ref l acc u) {e : Entry3} (he : e ∈ Dict.entries t) (hacc : ∀ a ∈ acc, ¬ own a)
    (h : closureCall E F m (2 + acc.toList.length) { u with stack := acc.toList ++ e.2.2 :: e.2.1 :: ca :: S } = .ok v) (hv : v.state = .ready) :
    ∃ r c, CallFor E F m vm.heap S ca acc e u v r c ∧ VInv v ∧ Free own v ∧ Holds v.heap ca (.clo true ref l) ∧ Stays vm.heap v.heap ∧
      KeptFor own (HeldBy own u.heap S) u.heap v.heap := by
  obtain ⟨l1, l2⟩ := entry_live g.inv g.tab he
  obtain ⟨c1, c2⟩ := entry_child he
  have hstk := g.inv.stack
  rw [g.stack] at hstk
  have i : VInv { u with stack := acc.toList ++ e.2.2 :: e.2.1 :: ca :: S } := by
    refine { g.inv with stack := fun a ha => ?_ }
    simp only [List.mem_append, List.mem_cons] at ha
    rcases ha with ha | rfl | rfl | rfl | ha
    · exact hstk a (List.mem_append_left _ ha)
    · exact l2
    · exact l1
    · exact ⟨_, g.clo⟩
    · exact hstk a (List.mem_append_right _ ha)
  have hlen : acc.toList.length ≤ 1 := by cases acc <;> simp
  have hdrop : (acc.toList ++ e.2.2 :: e.2.1 :: ca :: S).drop (2 + acc.toList.length + 1) = S := by
    rw [List.drop_append, List.drop_eq_nil_of_le (by omega), show 2 + acc.toList.length + 1 - acc.toList.length = 3 by omega]
    rfl
  have hat : At { u with stack := acc.toList ++ e.2.2 :: e.2.1 :: ca :: S } (2 + acc.toList.length) (.clo true ref l) := by
    refine ⟨ca, ?_, g.clo⟩
    simp only
    rw [List.getElem?_append_right (by omega), show 2 + acc.toList.length - acc.toList.length = 2 by omega]
    rfl
  have hfree : Free own { u with stack := acc.toList ++ e.2.2 :: e.2.1 :: ca :: S } := ⟨g.free.frames, g.free.gsyms, g.free.other, g.free.cells, g.free.low⟩
  obtain ⟨res, fr, k⟩ := callback (P := own) hF hH hA hK i g.ready (by omega) hat h hv hfree (by
    intro a ha
    simp only at ha
    have ha : a ∈ (acc.toList ++ e.2.2 :: e.2.1 :: ca :: S).take (2 + acc.toList.length + 1) := ha
    rw [List.take_append, List.take_of_length_le (by omega), show 2 + acc.toList.length + 1 - acc.toList.length = 3 by omega] at ha
    simp only [List.mem_append, List.take_succ_cons, List.take_zero, List.mem_cons, List.not_mem_nil, or_false] at ha
    rcases ha with ha | rfl | rfl | rfl
    · exact hacc a (Option.mem_toList.mp ha)
    · exact g.free.cells _ _ g.tab sc.tabOut _ c2
    · exact g.free.cells _ _ g.tab sc.tabOut _ c1
    · exact sc.cloOut) (by
    intro a ha
    simp only
    rw [hdrop]
    exact g.root a ha)
  simp only at k
  rw [hdrop] at k
  obtain ⟨r, hr⟩ := res.stack
  simp only at hr
  rw [hdrop] at hr
  obtain ⟨c, hc⟩ := res.inv.stack r (by rw [hr]; simp)
  refine ⟨r, c, ⟨h, hv, hr, res.rest, res.frames, res.pc, res.code, hc, ?_⟩, res.inv, fr, k.held _ _ (by simp) (.inl sc.caS) g.clo,
    g.stays.trans (inv_below sc.inv.heap) k.stays, k⟩
  intro a d ha hd hh
  obtain ⟨d', h'⟩ : Live u.heap a := by rcases ha with rfl | rfl; exacts [l1, l2]
  have := g.stays.same a d hd hh d' h'
  subst this
  exact h'

/-- The start. -/
theorem withTableAndClosure_entry {n : Nat} {args : List Nat} {k : Nat → Nat → VM → Res VM} (M : Entry vm args) (hn : args.length = n) (h0 : args[0]? = some ta)
    (h1 : args[1]? = some ca) (ht : Holds vm.heap ta (.tab t)) (hc : Holds vm.heap ca (.clo true ref l)) :
    withTableAndClosure n vm k = k ta ca { vm with stack := ca :: ta :: vm.stack } := by
  obtain ⟨f, fs, self, p, st, r, q, hf, hs, _, _⟩ := M.ex
  have e1 : lload vm 1 = .ok (VM.pushAddr vm ta) := lload_at hf (by rw [hs]; simpa using h0)
  have e2 : lload (VM.pushAddr vm ta) 2 = .ok (VM.pushAddr (VM.pushAddr vm ta) ca) := lload_at (vm := VM.pushAddr vm ta) hf (by rw [hs]; simpa using h1)
  have p1 : ∀ (u : VM) a c, Holds u.heap a c → peekCell (VM.pushAddr u a) 1 = .ok c ∧ peekAddr (VM.pushAddr u a) 1 = .ok a := by
    intro u a c ⟨m, g1, g2⟩
    have : peekAddr (VM.pushAddr u a) 1 = .ok a := rfl
    refine ⟨?_, this⟩
    unfold peekCell deref
    rw [this, Res.ok_bind]
    show (match FMap.get u.heap.objs a with | some m => Res.ok m | none => .ub) >>= _ = _
    rw [g1, ← g2]
    rfl
  unfold withTableAndClosure
  rw [M.lnum, Res.ok_bind, if_neg (by simp [hn]), e1, Res.ok_bind, (p1 vm ta _ ht).1, Res.ok_bind]
  simp only
  rw [(p1 vm ta _ ht).2, Res.ok_bind, e2, Res.ok_bind, (p1 (VM.pushAddr vm ta) ca _ hc).1, Res.ok_bind]
  simp only
  rw [(p1 (VM.pushAddr vm ta) ca _ hc).2, Res.ok_bind]
  rfl

/-! ### Returning -/

theorem back_ret1 {args : List Nat} (M : Entry vm args) {acc : Option Nat} {u w : VM} {a : Nat} {s : List Nat} (g : Mid vm own S ta ca t ref l acc u) (hs : u.stack = a :: s)
    (h : ret1 u = .ok w) : BackWith vm u w a := by
  obtain ⟨f, fs, self, p, st, r, q, hf, _, hr, hq⟩ := M.ex
  obtain ⟨d, hd⟩ := g.inv.rest (p :: st) (by rw [g.rest, hr]; simp) p (by simp)
  have := g.stays.same p _ (by simp) hq d hd
  subst this
  rw [ret1_eq (g.frames.trans hf) (g.rest.trans hr) hd hs] at h
  cases h
  exact ⟨⟨f, p, st, q, hf, hr, hq, rfl, rfl, rfl⟩, rfl, fun _ _ h => h⟩

theorem back_ret0 {args : List Nat} (M : Entry vm args) {acc : Option Nat} {u w : VM} (g : Mid vm own S ta ca t ref l acc u) (h : ret0 u = .ok w) :
    ∃ a, BackWith vm u w a ∧ Holds w.heap a (.atom .nil) := by
  obtain ⟨f, fs, self, p, st, r, q, hf, _, hr, hq⟩ := M.ex
  obtain ⟨d, hd⟩ := g.inv.rest (p :: st) (by rw [g.rest, hr]; simp) p (by simp)
  have := g.stays.same p _ (by simp) hq d hd
  subst this
  unfold ret0 at h
  rw [g.frames, hf, g.rest, hr] at h
  simp only [retTo] at h
  unfold need at h
  rw [if_neg (by simp)] at h
  have hp := (peek_top (vm := { u with swarmstack := if f.swarm then u.swarmstack.tail else u.swarmstack, frames := fs, rest := r }) hd st).1
  rw [hp, Res.ok_bind] at h
  cases h
  exact ⟨_, ⟨⟨f, p, st, q, hf, hr, hq, rfl, rfl, rfl⟩, rfl, fun _ _ h => newobj_holds h⟩, holds_new g.inv.heap _⟩

/-! ### `foreach` and `reduce` -/

theorem retTo_state {v w : VM} {k : VM → VM} (hk : ∀ x, (k x).state = x.state) (h : retTo v k = .ok w) (hw : w.state = .ready) : v.state = .ready := by
  unfold retTo need at h
  split at h
  · cases h; cases hw
  · obtain ⟨x, _, h⟩ := Res.bind_eq_ok.mp h
    cases x with
    | int q => simp only [Res.pure_eq, Res.ok.injEq] at h; subst h; rw [hk] at hw; exact hw
    | _ => simp only [Res.pure_eq, Res.ok.injEq] at h; subst h; cases hw

theorem ret1_state {u w : VM} (h : ret1 u = .ok w) (hw : w.state = .ready) : u.state = .ready := by
  unfold ret1 at h
  cases hf : u.frames with
  | nil => rw [hf] at h; cases h
  | cons f fs =>
    rw [hf] at h
    simp only at h
    unfold need at h
    by_cases hl : (u.stack.length : Int) - 1 < 0
    · rw [if_pos hl] at h; cases h; cases hw
    · rw [if_neg hl] at h
      obtain ⟨a, _, h⟩ := Res.bind_eq_ok.mp h
      cases hr : u.rest with
      | nil => rw [hr] at h; cases h
      | cons s r =>
        rw [hr] at h
        simp only at h
        have := retTo_state (k := fun vm => VM.pushAddr vm a) (fun _ => rfl) h hw
        exact this

theorem ret0_state {u w : VM} (h : ret0 u = .ok w) (hw : w.state = .ready) : u.state = .ready := by
  unfold ret0 at h
  cases hf : u.frames with
  | nil => rw [hf] at h; cases h
  | cons f fs =>
    cases hr : u.rest with
    | nil => rw [hf, hr] at h; cases h
    | cons s r =>
      rw [hf, hr] at h
      simp only at h
      have := retTo_state (k := pushNil) (fun _ => rfl) h hw
      exact this

/-- Nothing is owned. -/
def none' (_ : Nat) : Prop := False

theorem mid_start {args : List Nat} (M : Entry vm args) (acc : Option Nat) (hacc : ∀ a ∈ acc, Live vm.heap a) (ht : Holds vm.heap ta (.tab t))
    (hc : Holds vm.heap ca (.clo true ref l)) :
    Mid vm none' (ca :: ta :: vm.stack) ta ca t ref l acc { vm with stack := acc.toList ++ ca :: ta :: vm.stack } where
  inv := by
    refine { M.inv with stack := fun a ha => ?_ }
    simp only [List.mem_append, List.mem_cons] at ha
    rcases ha with ha | rfl | rfl | ha
    · exact hacc a (Option.mem_toList.mp ha)
    · exact ⟨_, hc⟩
    · exact ⟨_, ht⟩
    · exact M.inv.stack a ha
  ready := M.ready
  stack := rfl
  free := ⟨fun _ _ _ _ h => h, fun _ _ h => h, fun _ _ h => h, fun _ _ _ _ _ _ h => h, fun _ h => h.elim⟩
  tab := ht
  clo := hc
  stays := .refl _
  rest := rfl
  frames := rfl
  pc := rfl
  code := rfl
  root := fun _ h => h.elim

theorem scene_none {args : List Nat} (M : Entry vm args) : Scene vm none' (ca :: ta :: vm.stack) ta ca := ⟨M.inv, id, id, by simp⟩

/-- After a call, if the table is still the same. -/
theorem mid_next {acc acc' : Option Nat} {u v : VM} {e : Entry3} {r : Nat} {c : Cell} (g : Mid vm own S ta ca t ref l acc u)
    (k : CallFor E F m vm.heap S ca acc e u v r c) (i : VInv v) (fr : Free own v) (hc : Holds v.heap ca (.clo true ref l)) (st : Stays vm.heap v.heap)
    {R : Nat → Prop} (kept : KeptFor own R u.heap v.heap) (ht : Holds v.heap ta (.tab t)) (ha : ∀ a ∈ acc', a = r) : Mid vm own S ta ca t ref l acc' { v with stack := acc'.toList ++ S } where
  inv := by
    refine { i with stack := fun a h => i.stack a ?_ }
    rw [k.stack]
    rcases List.mem_append.mp h with h | h
    · rw [ha a (Option.mem_toList.mp h)]; simp
    · exact List.mem_cons_of_mem _ h
  ready := k.ready
  stack := rfl
  free := ⟨fr.frames, fr.gsyms, fr.other, fr.cells, fr.low⟩
  tab := ht
  clo := hc
  stays := st
  rest := k.rest.trans g.rest
  frames := k.frames.trans g.frames
  pc := k.pc.trans g.pc
  code := k.code.trans g.code
  root a ha := (g.root a ha).imp id fun ⟨b, c, h1, h2, h3, h4⟩ => ⟨b, c, h1, h2, kept.own _ _ h2 h3, h4⟩

/-- What holds after the calls for the entries `d`. -/
def Along (E : Env) (F : CFuns) (m : Nat) (own : Nat → Prop) (S : List Nat) (ta ca : Nat) (t : Table.Tbl (Nat × Nat)) (ref : Int) (l : List Nat) (vm : VM) (a0 : Option Nat)
    (Q : List (Entry3 × Nat × Cell) → VM → Prop) (d : List Entry3) (u : VM) : Prop :=
  ∃ cs acc, d = cs.map (·.1) ∧ CallsFor E F m own S ca vm a0 cs acc u ∧ Mid vm own S ta ca t ref l acc u ∧ Q cs u

theorem calls_isSome {a0 : Option Nat} {cs : List (Entry3 × Nat × Cell)} {acc : Option Nat} {u : VM} (h : CallsFor E F m own S ca vm a0 cs acc u) : acc.isSome = a0.isSome := by
  induction h with
  | start _ => rfl
  | call _ _ _ ih => rw [Option.isSome_map]; exact ih

theorem calls_none {cs : List (Entry3 × Nat × Cell)} {acc : Option Nat} {u : VM} (h : CallsFor E F m own S ca vm none cs acc u) : acc = none := by
  simpa using calls_isSome h

theorem foreach_step (hF : FOk F) (hH : FHome F) (hA : FApart F) (hK : FFirm F) (M : Entry vm [ta, ca]) (d : List Entry3) (e : Entry3) (r : List Entry3) (u v : VM)
    (hd : Dict.entries t = d ++ e :: r) (hg : Along E F m none' (ca :: ta :: vm.stack) ta ca t ref l vm none (fun _ _ => True) d u)
    (hu : u.state = .ready) (hb : foreachEntry E F m ca e u = .ok v) (hv : v.state = .ready) :
    Along E F m none' (ca :: ta :: vm.stack) ta ca t ref l vm none (fun _ _ => True) (d ++ [e]) v ∨ Disturbed E F m none' (ca :: ta :: vm.stack) ta ca t vm none := by
  obtain ⟨cs, acc, rfl, k, g, _⟩ := hg
  obtain rfl := calls_none k
  unfold foreachEntry at hb
  rw [if_neg (by simp [hu])] at hb
  obtain ⟨y, hy, hb⟩ := Res.bind_eq_ok.mp hb
  by_cases hyr : y.state = .ready
  swap
  · rw [if_pos hyr] at hb
    cases hb
    exact absurd hv hyr
  rw [if_neg (by simp [hyr])] at hb
  have hy' : closureCall E F m (2 + (none : Option Nat).toList.length) { u with stack := (none : Option Nat).toList ++ e.2.2 :: e.2.1 :: ca :: ca :: ta :: vm.stack } = .ok y := by
    rw [← hy]
    unfold pushEntry VM.pushAddr
    rw [g.stack]
    rfl
  obtain ⟨r', c, kc, i, fr, hcl, st, kept⟩ := one_call hF hH hA hK (scene_none M) g (by rw [hd]; simp) (by simp) hy' hyr
  by_cases htab : Holds y.heap ta (.tab t)
  · left
    have hpop : pop y = { y with stack := (none : Option Nat).toList ++ ca :: ta :: vm.stack } := by
      unfold pop popN
      rw [if_neg (by rw [kc.stack]; simp), kc.stack]
      rfl
    rw [hpop] at hb
    cases hb
    exact ⟨cs ++ [(e, r', c)], none, by simp, .call k kc ⟨rfl, fun _ _ _ => Iff.rfl⟩, mid_next g kc i fr hcl st kept htab (by simp), trivial⟩
  · exact .inr ⟨cs, none, e, r, u, y, r', c, hd, k, kc, htab⟩

/-- **C77** `foreach(t, f)` with a function of the script: when it ends with the machine ready, `f` has been called once for each entry of the table, in the
order of the table, with the entry's key and value, each time on the machine left by the call before; and nil has been returned.  Otherwise a call has
changed the table.  C functions called by `f` must return to their callers (`FHome`) and change no objects they cannot reach (`FApart`) and no objects other
than tables (`FFirm`). -/
theorem C77_foreach (hF : FOk F) (hH : FHome F) (hA : FApart F) (hK : FFirm F) {w : VM} (M : Entry vm [ta, ca]) (ht : Holds vm.heap ta (.tab t))
    (hc : Holds vm.heap ca (.clo true ref l)) (h : objForeach E F m vm = .ok w) (hw : w.state = .ready) :
    (∃ cs u a, Dict.entries t = cs.map (·.1) ∧ CallsFor E F m none' (ca :: ta :: vm.stack) ca vm none cs none u ∧ BackWith vm u w a ∧ Holds w.heap a (.atom .nil)) ∨
      Disturbed E F m none' (ca :: ta :: vm.stack) ta ca t vm none := by
  unfold objForeach at h
  rw [withTableAndClosure_entry (n := 2) M rfl rfl rfl ht hc] at h
  obtain ⟨x, h1, h2⟩ := Res.bind_eq_ok.mp h
  have hx := ret0_state h2 hw
  have skip : ∀ e u, u.state ≠ .ready → foreachEntry E F m ca e u = .ok u := fun e u hu => by unfold foreachEntry; rw [if_pos hu]; rfl
  have g0 := mid_start M none (by simp) ht hc
  have s0 : Along E F m none' (ca :: ta :: vm.stack) ta ca t ref l vm none (fun _ _ => True) [] { vm with stack := ca :: ta :: vm.stack } :=
    ⟨[], none, rfl, .start (u := { vm with stack := ca :: ta :: vm.stack }) ⟨rfl, fun _ _ _ => Iff.rfl⟩, g0, trivial⟩
  rcases dictForeach_visits (t := t) (G := Along E F m none' (ca :: ta :: vm.stack) ta ca t ref l vm none (fun _ _ => True))
    (B := fun _ => Disturbed E F m none' (ca :: ta :: vm.stack) ta ca t vm none) skip (fun d u ⟨_, _, _, _, g, _⟩ => g.tab) (foreach_step hF hH hA hK M)
    s0 g0.ready h1 hx with ⟨cs, acc, e, k, g, _⟩ | ⟨_, _, _, _, b⟩
  · obtain rfl := calls_none k
    obtain ⟨a, b, n⟩ := back_ret0 M g h2
    exact .inl ⟨cs, x, a, e, k, b, n⟩
  · exact .inr b

theorem reduce_step {a0 : Nat} (hF : FOk F) (hH : FHome F) (hA : FApart F) (hK : FFirm F) (sc : Scene vm none' S ta ca) (d : List Entry3) (e : Entry3) (r : List Entry3) (u v : VM)
    (hd : Dict.entries t = d ++ e :: r) (hg : Along E F m none' S ta ca t ref l vm (some a0) (fun _ _ => True) d u)
    (hu : u.state = .ready) (hb : reduceEntry E F m ca e u = .ok v) (hv : v.state = .ready) :
    Along E F m none' S ta ca t ref l vm (some a0) (fun _ _ => True) (d ++ [e]) v ∨ Disturbed E F m none' S ta ca t vm (some a0) := by
  obtain ⟨cs, acc, rfl, k, g, _⟩ := hg
  obtain ⟨a, rfl⟩ := Option.isSome_iff_exists.mp (calls_isSome k)
  have hst : u.stack = a :: S := g.stack
  unfold reduceEntry at hb
  have hpk : peekAddr u 1 = .ok a := by unfold peekAddr; rw [hst]; rfl
  have hpop : pop u = { u with stack := S } := by unfold pop popN; rw [hst]; rfl
  rw [if_neg (by simp [hu]), hpk, Res.ok_bind, hpop] at hb
  obtain ⟨y, hy, hb⟩ := Res.bind_eq_ok.mp hb
  by_cases hyr : y.state = .ready
  swap
  · rw [if_pos hyr] at hb
    cases hb
    exact absurd hv hyr
  rw [if_neg (by simp [hyr])] at hb
  obtain ⟨r', c, kc, i, fr, hcl, st, kept⟩ := one_call hF hH hA hK sc g (e := e) (by rw [hd]; simp) (fun _ _ h => h) hy hyr
  rw [if_neg (by rw [kc.stack]; simp)] at hb
  simp only [Res.pure_eq, Res.ok.injEq] at hb
  subst hb
  by_cases htab : Holds y.heap ta (.tab t)
  · left
    have hs : { y with stack := (some r').toList ++ S } = y := by
      have := kc.stack
      cases y
      simp only at this
      subst this
      rfl
    have g' := mid_next (acc' := some r') g kc i fr hcl st kept htab (by simp)
    rw [hs] at g'
    exact ⟨cs ++ [(e, r', c)], some r', by simp, .call k kc ⟨rfl, fun _ _ _ => Iff.rfl⟩, g', trivial⟩
  · exact .inr ⟨cs, some a, e, r, u, y, r', c, hd, k, kc, htab⟩

/-- **C77** `reduce(t, f, a0)`: likewise, `f` has been called once for each entry with key, value and accumulator, first `a0` and then each time the result of the
call before; the last result has been returned (`a0` for an empty table). -/
theorem C77_reduce {a0 : Nat} (hF : FOk F) (hH : FHome F) (hA : FApart F) (hK : FFirm F) {w : VM} (M : Entry vm [ta, ca, a0]) (ht : Holds vm.heap ta (.tab t))
    (hc : Holds vm.heap ca (.clo true ref l)) (h : objReduce E F m vm = .ok w) (hw : w.state = .ready) :
    (∃ cs u r, Dict.entries t = cs.map (·.1) ∧ CallsFor E F m none' (ca :: ta :: vm.stack) ca vm (some a0) cs (some r) u ∧ BackWith vm u w r) ∨
      Disturbed E F m none' (ca :: ta :: vm.stack) ta ca t vm (some a0) := by
  unfold objReduce at h
  rw [withTableAndClosure_entry (n := 3) M rfl rfl rfl ht hc] at h
  have h3 : lload { vm with stack := ca :: ta :: vm.stack } 3 = .ok (VM.pushAddr { vm with stack := ca :: ta :: vm.stack } a0) := by
    obtain ⟨f, fs, self, p, st, r, q, hf, hs, _, _⟩ := M.ex
    exact lload_at (vm := { vm with stack := ca :: ta :: vm.stack }) hf (by rw [hs]; rfl)
  rw [h3, Res.ok_bind] at h
  obtain ⟨x, h1, h2⟩ := Res.bind_eq_ok.mp h
  have hx := ret1_state h2 hw
  have skip : ∀ e u, u.state ≠ .ready → reduceEntry E F m ca e u = .ok u := fun e u hu => by unfold reduceEntry; rw [if_pos hu]; rfl
  have hl : Live vm.heap a0 := by
    obtain ⟨f, fs, self, p, st, r, q, hf, hs, _, _⟩ := M.ex
    exact M.inv.frames f (by rw [hf]; simp) a0 (by rw [hs]; simp)
  have g0 := mid_start M (some a0) (by rintro _ ⟨⟩; exact hl) ht hc
  have s0 : Along E F m none' (ca :: ta :: vm.stack) ta ca t ref l vm (some a0) (fun _ _ => True) [] { vm with stack := a0 :: ca :: ta :: vm.stack } :=
    ⟨[], some a0, rfl, .start (u := { vm with stack := a0 :: ca :: ta :: vm.stack }) ⟨rfl, fun _ _ _ => Iff.rfl⟩, g0, trivial⟩
  rcases dictForeach_visits (t := t) (G := Along E F m none' (ca :: ta :: vm.stack) ta ca t ref l vm (some a0) (fun _ _ => True))
    (B := fun _ => Disturbed E F m none' (ca :: ta :: vm.stack) ta ca t vm (some a0)) skip (fun d u ⟨_, _, _, _, g, _⟩ => g.tab) (reduce_step hF hH hA hK (scene_none M))
    s0 g0.ready h1 hx with ⟨cs, acc, e, k, g, _⟩ | ⟨_, _, _, _, b⟩
  · obtain ⟨a, rfl⟩ := Option.isSome_iff_exists.mp (calls_isSome k)
    exact .inl ⟨cs, x, a, e, k, back_ret1 M g g.stack h2⟩
  · exact .inr b

/-! ### `map` and `filter` -/

theorem holds_write_ne {h : Heap} {a x : Nat} {c d : Cell} (hx : x ≠ a) : Holds (Heap.write h a c) x d ↔ Holds h x d := by
  constructor
  · rintro ⟨m, h1, h2⟩
    rw [get_write, if_neg hx] at h1
    exact ⟨m, h1, h2⟩
  · rintro ⟨m, h1, h2⟩
    exact ⟨m, by rw [get_write, if_neg hx]; exact h1, h2⟩

theorem live_write {h : Heap} {a x : Nat} {c : Cell} : Live (Heap.write h a c) x ↔ Live h x := by
  constructor
  · rintro ⟨d, m, h1, h2⟩
    rw [get_write] at h1
    split at h1
    · obtain ⟨m', h3, _⟩ := Option.map_eq_some_iff.mp h1
      exact ⟨_, m', h3, rfl⟩
    · exact ⟨d, m, h1, h2⟩
  · rintro ⟨d, m, h1, h2⟩
    by_cases hx : x = a
    · refine ⟨c, { m with cell := c }, ?_, rfl⟩
      rw [get_write, if_pos hx, h1]
      rfl
    · exact ⟨d, (holds_write_ne hx).mpr ⟨m, h1, h2⟩⟩

theorem put_new {K : Obj → Prop} {V : Type} {sc : Bytes → Bytes → Int} (H : Table.Homog sc K) {tr t' : Table.Tbl V} (w : Dict.WF Table.hashN Table.eqd tr) (k : Table.Keys K tr)
    {key : Obj} (hk : K key) (hn : ∀ x ∈ Dict.entries tr, x.1 ≠ key) {o : Option V} (h : Table.put sc tr key o = .ok t') :
    Dict.WF Table.hashN Table.eqd t' ∧ Table.Keys K t' ∧ (Dict.entries t').Perm (Dict.entries tr ++ (o.map (fun v => (key, v))).toList) := by
  obtain ⟨t1, h1, h2, h3, h4⟩ := Table.put_spec H w k hk o
  rw [h1] at h
  cases h
  refine ⟨h2, h3, ?_⟩
  rw [List.filter_eq_self.mpr] at h4
  · exact h4
  · intro x hx
    have := hn x hx
    simp [Table.eqd, this.symm]

/-- The table made so far; other objects that are owned are as they were in the heap `h`. -/
def Built (own : Nat → Prop) (h : Heap) (pick : Entry3 × Nat × Cell → Option (Nat × Nat)) (K : Obj → Prop) (ra : Nat) (cs : List (Entry3 × Nat × Cell)) (u : VM) : Prop :=
  ∃ tr, Holds u.heap ra (.tab tr) ∧ Dict.WF Table.hashN Table.eqd tr ∧ Table.Keys K tr ∧
    (Dict.entries tr).Perm (cs.filterMap fun x => (pick x).map (fun v => (x.1.1, v))) ∧
    (∀ x ∈ cs, ∀ v, pick x = some v → v.2 = x.2.1 → (∀ t, x.2.2 ≠ .tab t) → Holds u.heap x.2.1 x.2.2) ∧ ∀ a c, own a → a ≠ ra → Holds h a c → Holds u.heap a c

/-- The new table is owned. -/
def just (ra a : Nat) : Prop := a = ra

/-- A call for an entry, and then what `pick` says of it is put into the new table. -/
theorem built_step {K : Obj → Prop} {pick : Entry3 × Nat × Cell → Option (Nat × Nat)} {own : Nat → Prop} {ra : Nat} {S : List Nat} {a0 : Option Nat} (hra : own ra) (hrt : ∀ d, Holds vm.heap ra d → ∃ t, d = .tab t) (hrs : ra ∉ S ∨ ∀ a, own a → a ∈ S) (H : Table.Homog E.sc K) (wf : Dict.WF Table.hashN Table.eqd t)
    (hkeys : Table.Keys K t) (sc : Scene vm own S ta ca) {cs : List (Entry3 × Nat × Cell)} {e : Entry3} {rest : List Entry3}
    (hd : Dict.entries t = cs.map (·.1) ++ e :: rest) {u v : VM} {acc : Option Nat} (k : CallsFor E F m own S ca vm a0 cs acc u) (hacc : acc = none)
    (g : Mid vm own S ta ca t ref l acc u) (bu : Built own vm.heap pick K ra cs u) {r : Nat} {c : Cell}
    (kc : CallFor E F m vm.heap S ca acc e u v r c) (i : VInv v) (fr : Free own v) (hcl : Holds v.heap ca (.clo true ref l)) (st : Stays vm.heap v.heap)
    (kept : KeptFor own (HeldBy own u.heap S) u.heap v.heap) (htab : Holds v.heap ta (.tab t))
    (hpick : ∀ x, pick (e, r, c) = some x → x.1 = e.2.1 ∧ (x.2 = r ∨ x.2 = e.2.2)) {tr t' : Table.Tbl (Nat × Nat)} (htr : Holds v.heap ra (.tab tr))
    (hput : Table.put E.sc tr e.1 (pick (e, r, c)) = .ok t') :
    CallsFor E F m own S ca vm a0 (cs ++ [(e, r, c)]) none { v with heap := Heap.write v.heap ra (.tab t'), stack := S } ∧
      Mid vm own S ta ca t ref l none { v with heap := Heap.write v.heap ra (.tab t'), stack := S } ∧
      Built own vm.heap pick K ra (cs ++ [(e, r, c)]) { v with heap := Heap.write v.heap ra (.tab t'), stack := S } := by
  subst hacc
  obtain ⟨tr', b1, b2, b3, b4, b5, b6⟩ := bu
  have := holds_inj htr (kept.own _ _ hra b1)
  cases this
  have hdis : ∀ x ∈ Dict.entries tr, x.1 ≠ e.1 := by
    intro x hx
    have hx := b4.mem_iff.mp hx
    obtain ⟨y, hy, hy2⟩ := List.mem_filterMap.mp hx
    obtain ⟨o, _, rfl⟩ := Option.map_eq_some_iff.mp hy2
    have := Hof.entries_distinct wf
    rw [hd, List.pairwise_append] at this
    exact this.2.2 y.1 (List.mem_map_of_mem hy) e (by simp)
  obtain ⟨n1, n2, n3⟩ := put_new H b2 b3 (hkeys e (by rw [hd]; simp)) hdis hput
  have he := (i.cells _ _ htab).2 e (by rw [hd]; simp)
  have cok : VM.CellOk v.heap v.strings (.tab t') := by
    refine ⟨by have := n1.pos; omega, fun x hx => ?_⟩
    rcases List.mem_append.mp (n3.mem_iff.mp hx) with hx | hx
    · exact (i.cells _ _ htr).2 x hx
    · rw [Option.mem_toList] at hx
      obtain ⟨o, ho, rfl⟩ := Option.map_eq_some_iff.mp hx
      obtain ⟨p1, p2⟩ := hpick o ho
      refine ⟨he.1, he.2.1, by rw [p1]; exact he.2.2.1, ?_⟩
      rcases p2 with p2 | p2
      · simp only [p2]; exact ⟨c, kc.value⟩
      · simp only [p2]; exact he.2.2.2
  have iw := i.write htr (by simp) cok
  have hne : ∀ {a : Nat} {d : Cell}, (∀ t, d ≠ .tab t) → Holds vm.heap a d → a ≠ ra := fun hd h e => by
    subst e
    obtain ⟨t, rfl⟩ := hrt _ h
    exact hd t rfl
  have hno : ∀ {a : Nat}, ¬ own a → a ≠ ra := fun h e => h (e ▸ hra)
  have gw : Mid vm own S ta ca t ref l none { v with heap := Heap.write v.heap ra (.tab t'), stack := S } := {
    inv := { iw with stack := fun a ha => iw.stack a (by show a ∈ v.stack; rw [kc.stack]; exact List.mem_cons_of_mem _ ha) }
    ready := kc.ready
    stack := rfl
    free := ⟨fr.frames, fr.gsyms, fr.other, fun a d hh ha b hb => fr.cells a d ((holds_write_ne (hno ha)).mp hh) ha b hb, fr.low⟩
    tab := (holds_write_ne (hno sc.tabOut)).mpr htab
    clo := (holds_write_ne (hno sc.cloOut)).mpr hcl
    stays := ⟨st.brk, fun a ha hl => st.old a ha (live_write.mp hl), fun a d hd' ha d' hh => st.same a d hd' ha d' ((holds_write_ne (hne hd' ha)).mp hh)⟩
    rest := kc.rest.trans g.rest
    frames := kc.frames.trans g.frames
    pc := kc.pc.trans g.pc
    code := kc.code.trans g.code
    root := fun a ha => by
      rcases hrs with hrs | hrs
      · refine (g.root a ha).imp id fun ⟨b, c, h1, h2, h3, h4⟩ => ⟨b, c, h1, h2, (holds_write_ne ?_).mpr (kept.own _ _ h2 h3), h4⟩
        rintro rfl
        exact hrs h1
      · exact .inl (hrs a ha) }
  refine ⟨.call k kc ⟨rfl, fun a d ha => holds_write_ne (hno ha)⟩, gw, t', ?_, n1, n2, ?_, ?_, ?_⟩
  · exact (holds_write htr).mpr (.inl ⟨rfl, rfl⟩)
  · rw [List.filterMap_append]
    refine n3.trans (List.Perm.append b4 (List.Perm.of_eq ?_))
    cases hp : pick (e, r, c) <;> simp [hp]
  · intro x hx o ho hv ht
    have hb : Holds v.heap x.2.1 x.2.2 := by
      rcases List.mem_append.mp hx with hx | hx
      · refine kept.held _ _ ht (.inr ⟨ra, .tab tr, hra, b1, ?_⟩) (b5 x hx o ho hv ht)
        have hm : (x.1.1, o) ∈ Dict.entries tr := b4.mem_iff.mpr (List.mem_filterMap.mpr ⟨x, hx, by rw [ho]; rfl⟩)
        have := (entry_child hm).2
        rw [← hv]
        exact this
      · simp only [List.mem_singleton] at hx
        subst hx
        exact kc.value
    by_cases hx2 : x.2.1 = ra
    · rw [hx2] at hb
      have := holds_inj hb htr
      exact absurd this (ht tr)
    · exact (holds_write_ne hx2).mpr hb
  · intro a d ha hn hh
    exact (holds_write_ne hn).mpr (kept.own _ _ ha (b6 a d ha hn hh))

theorem brk_none {h : Heap} (i : Heap.Inv h) (d : Cell) (hd : Holds h h.brk d) : ∃ t, d = .tab t := absurd (inv_below i _ _ hd) (Nat.lt_irrefl _)

theorem own_start (M : Entry vm [ta, ca]) (ht : Holds vm.heap ta (.tab t)) (hc : Holds vm.heap ca (.clo true ref l)) :
    Mid vm (just vm.heap.brk) (vm.heap.brk :: ca :: ta :: vm.stack) ta ca t ref l none (pushT { vm with stack := ca :: ta :: vm.stack }) ∧
      Scene vm (just vm.heap.brk) (vm.heap.brk :: ca :: ta :: vm.stack) ta ca := by
  have g := mid_start M none (by simp) ht hc
  have below := inv_below M.inv.heap
  have ne : ∀ a, Live vm.heap a → ¬ just vm.heap.brk a := fun a ⟨c, h⟩ e => by have := below a c h; unfold just at e; omega
  have iv : VInv (pushT { vm with stack := ca :: ta :: vm.stack }) := g.inv.push ⟨by decide, fun e he => by rw [show Dict.entries (Table.new : Table.Tbl (Nat × Nat)) = [] from Dict.entries_new _] at he; cases he⟩
  refine ⟨⟨iv, M.ready, rfl, ⟨fun f hf a ha => ne a (M.inv.frames f hf a ha), fun e he => ne _ (M.inv.gsyms e he), ?_, ?_, ?_⟩, newobj_holds ht, newobj_holds hc, ?_, rfl, rfl, rfl, rfl, fun a ha => .inl (by unfold just at ha; simp [ha])⟩,
    ⟨M.inv, ne _ ⟨_, ht⟩, ne _ ⟨_, hc⟩, by simp⟩⟩
  · intro a ha
    refine ne a ?_
    rcases ha with ⟨e, he, h⟩ | ⟨e, he, rfl⟩
    · have := M.inv.other.vstigs e he
      rcases h with h | h | ⟨x, hx, rfl | rfl⟩
      · exact this.1 a h
      · exact this.2.1 a h
      · exact (this.2.2 x hx).1
      · exact (this.2.2 x hx).2
    · exact M.inv.other.listeners e he
  · intro a c hh ha b hb
    rcases holds_newobj hh with h1 | ⟨h1, _⟩
    · exact ne b (holds_isSome.mp ((M.inv.cells a c h1).children b hb))
    · exact absurd h1 ha
  · intro a ha
    unfold just at ha
    show a < vm.heap.brk + 1
    omega
  · exact ((Firm.new (vm := vm) (c := .tab Table.new) : Firm vm (pushT { vm with stack := ca :: ta :: vm.stack })) below).2.stays

/-- What `map` keeps of a call: a result that is not nil, under the key of the entry. -/
def mapped : Entry3 × Nat × Cell → Option (Nat × Nat)
  | (_, _, .atom .nil) => none
  | (e, r, _) => some (e.2.1, r)

/-- What `filter` keeps of a call: the entry, unless the result is nil or the integer 0. -/
def passed : Entry3 × Nat × Cell → Option (Nat × Nat)
  | (_, _, .atom .nil) => none
  | (_, _, .atom (.int 0)) => none
  | (e, _, _) => some e.2

/-- The new table has what `pick` says of each call under the key of its entry, and nothing else. -/
structure Collected (E : Env) (K : Obj → Prop) (pick : Entry3 × Nat × Cell → Option (Nat × Nat)) (cs : List (Entry3 × Nat × Cell)) (t' : Table.Tbl (Nat × Nat)) : Prop where
  get : ∀ x ∈ cs, Table.get E.sc t' x.1.1 = .ok (pick x)
  absent : ∀ key, K key → (∀ x ∈ cs, x.1.1 ≠ key) → Table.get E.sc t' key = .ok none
  size : t'.size = (cs.filter fun x => (pick x).isSome).length % 4294967296
  wf : Dict.WF Table.hashN Table.eqd t'

theorem find_unique {W : Type} {l : List (Obj × W)} (hp : l.Pairwise (fun a b => a.1 ≠ b.1)) {y : Obj × W} (hy : y ∈ l) : l.find? (fun e => Table.eqd y.1 e.1) = some y := by
  induction l with
  | nil => cases hy
  | cons a l ih =>
    rw [List.pairwise_cons] at hp
    rcases List.mem_cons.mp hy with rfl | hy
    · simp [Table.eqd]
    · rw [List.find?_cons_of_neg (by simp [Table.eqd, (hp.1 y hy).symm])]
      exact ih hp.2 hy

theorem built_collected {K : Obj → Prop} {pick : Entry3 × Nat × Cell → Option (Nat × Nat)} (H : Table.Homog E.sc K) (wf : Dict.WF Table.hashN Table.eqd t) (hkeys : Table.Keys K t)
    {cs : List (Entry3 × Nat × Cell)} (hd : Dict.entries t = cs.map (·.1)) {tr : Table.Tbl (Nat × Nat)} (w : Dict.WF Table.hashN Table.eqd tr) (k : Table.Keys K tr)
    (hp : (Dict.entries tr).Perm (cs.filterMap fun x => (pick x).map (fun v => (x.1.1, v)))) : Collected E K pick cs tr := by
  have dist : cs.Pairwise (fun a b => a.1.1 ≠ b.1.1) := by
    have := Hof.entries_distinct wf
    rw [hd, List.pairwise_map] at this
    exact this
  have none_of : ∀ key, K key → (∀ z ∈ Dict.entries tr, z.1 ≠ key) → Table.get E.sc tr key = .ok none := by
    intro key hk hn
    rw [Table.get_spec H w k hk, List.find?_eq_none.mpr]
    · rfl
    · intro z hz
      have := hn z hz
      simp [Table.eqd, this.symm]
  have from_cs : ∀ z ∈ Dict.entries tr, ∃ y ∈ cs, ∃ o, pick y = some o ∧ z = (y.1.1, o) := by
    intro z hz
    obtain ⟨y, hy, hy2⟩ := List.mem_filterMap.mp (hp.mem_iff.mp hz)
    obtain ⟨o, ho, rfl⟩ := Option.map_eq_some_iff.mp hy2
    exact ⟨y, hy, o, ho, rfl⟩
  have uniq : ∀ x ∈ cs, ∀ y ∈ cs, x.1.1 = y.1.1 → x = y := by
    have nd : (cs.map (fun x => x.1.1)).Nodup := List.pairwise_map.mpr dist
    exact fun x hx y hy e => List.inj_on_of_nodup_map nd hx hy e
  refine ⟨?_, ?_, ?_, w⟩
  · intro x hx
    have hk : K x.1.1 := hkeys x.1 (by rw [hd]; exact List.mem_map_of_mem hx)
    cases ho : pick x with
    | none =>
      refine none_of _ hk fun z hz e => ?_
      obtain ⟨y, hy, o, hyo, rfl⟩ := from_cs z hz
      have := uniq y hy x hx e
      subst this
      rw [ho] at hyo
      cases hyo
    | some o =>
      have hm : (x.1.1, o) ∈ Dict.entries tr := hp.mem_iff.mpr (List.mem_filterMap.mpr ⟨x, hx, by rw [ho]; rfl⟩)
      rw [Table.get_spec H w k hk, find_unique (Hof.entries_distinct w) hm]
      rfl
  · intro key hk hn
    refine none_of _ hk fun z hz e => ?_
    obtain ⟨y, hy, o, hyo, rfl⟩ := from_cs z hz
    exact hn y hy e
  · rw [w.size_eq, hp.length_eq]
    congr 1
    clear hp dist none_of from_cs uniq hd
    induction cs with
    | nil => rfl
    | cons a l ih =>
      rw [List.filterMap_cons]
      cases ha : pick a with
      | none => simpa [ha] using ih
      | some v => simpa [ha] using ih

theorem map_step {K : Obj → Prop} (hF : FOk F) (hH : FHome F) (hA : FApart F) (hK : FFirm F) (H : Table.Homog E.sc K) (wf : Dict.WF Table.hashN Table.eqd t) (hkeys : Table.Keys K t)
    (sc : Scene vm (just vm.heap.brk) (vm.heap.brk :: ca :: ta :: vm.stack) ta ca) (d : List Entry3) (e : Entry3) (r : List Entry3) (u v : VM)
    (hd : Dict.entries t = d ++ e :: r)
    (hg : Along E F m (just vm.heap.brk) (vm.heap.brk :: ca :: ta :: vm.stack) ta ca t ref l vm none (Built (just vm.heap.brk) vm.heap mapped K vm.heap.brk) d u)
    (hu : u.state = .ready) (hb : mapEntry E F m ta ca vm.heap.brk e u = .ok v) (hv : v.state = .ready) :
    Along E F m (just vm.heap.brk) (vm.heap.brk :: ca :: ta :: vm.stack) ta ca t ref l vm none (Built (just vm.heap.brk) vm.heap mapped K vm.heap.brk) (d ++ [e]) v ∨
      Disturbed E F m (just vm.heap.brk) (vm.heap.brk :: ca :: ta :: vm.stack) ta ca t vm none := by
  obtain ⟨cs, acc, rfl, k, g, bu⟩ := hg
  obtain rfl := calls_none k
  unfold mapEntry at hb
  rw [if_neg (by simp [hu])] at hb
  obtain ⟨y, hy, hb⟩ := Res.bind_eq_ok.mp hb
  by_cases hyr : y.state = .ready
  swap
  · rw [if_pos hyr] at hb
    cases hb
    exact absurd hv hyr
  rw [if_neg (by simp [hyr])] at hb
  have hy' : closureCall E F m (2 + (none : Option Nat).toList.length)
      { u with stack := (none : Option Nat).toList ++ e.2.2 :: e.2.1 :: ca :: vm.heap.brk :: ca :: ta :: vm.stack } = .ok y := by
    rw [← hy]
    unfold pushEntry VM.pushAddr
    rw [g.stack]
    rfl
  obtain ⟨r', c, kc, i, fr, hcl, st, kept⟩ := one_call hF hH hA hK sc g (by rw [hd]; simp) (by simp) hy' hyr
  rw [if_neg (by rw [kc.stack, g.stack]; simp)] at hb
  by_cases htab : Holds y.heap ta (.tab t)
  swap
  · exact .inr ⟨cs, none, e, r, u, y, r', c, hd, k, kc, htab⟩
  left
  have p1 : peekAddr y 1 = .ok r' := by unfold peekAddr; rw [kc.stack]; rfl
  have p2 : peekCell y 1 = .ok c := by
    obtain ⟨mk, q1, q2⟩ := kc.value
    unfold peekCell deref
    rw [p1, Res.ok_bind, q1, ← q2]
    rfl
  rw [p1, Res.ok_bind, p2, Res.ok_bind] at hb
  obtain ⟨_, _, hb⟩ := Res.bind_eq_ok.mp hb
  obtain ⟨tr, htr, hb⟩ := Res.bind_eq_ok.mp hb
  obtain ⟨t', hput, hb⟩ := Res.bind_eq_ok.mp hb
  have hput' : Table.put E.sc tr e.1 (mapped (e, r', c)) = .ok t' := by
    rw [← hput]
    unfold mapped mapResult Table.put
    cases c with
    | atom o => cases o <;> rfl
    | tab _ => rfl
    | clo _ _ _ => rfl
  have res := built_step (pick := mapped) (own := just vm.heap.brk) rfl (brk_none sc.inv.heap) (.inr fun a ha => by unfold just at ha; simp [ha]) H wf hkeys sc hd k rfl g bu kc i fr hcl st kept htab (by
    intro x hx
    unfold mapped at hx
    split at hx
    · cases hx
    · rename_i hq
      cases hq
      cases hx
      exact ⟨rfl, .inl rfl⟩) (tabAt_holds htr) hput'
  have hpop : pop { y with heap := Heap.write y.heap vm.heap.brk (.tab t') } =
      { y with heap := Heap.write y.heap vm.heap.brk (.tab t'), stack := vm.heap.brk :: ca :: ta :: vm.stack } := by
    unfold pop popN
    rw [if_neg (by rw [kc.stack]; simp)]
    simp only [kc.stack]
    rfl
  simp only [Res.pure_eq, Res.ok.injEq] at hb
  rw [← hb, hpop]
  exact ⟨_, none, by simp, res⟩

/-- **C77** `map(t, f)`: when it ends with the machine ready, `f` has been called once for each entry of the table, in the order of the table, with the entry's key and
value, each time on the machine left by the call before, from which nothing but the new table has changed; the new table, returned, has the result of each call under
the key of its entry, unless it is nil, and nothing else; results other than tables are as they were returned.  Otherwise a call has changed the table visited.
The table's keys must be comparable (C05). -/
theorem C77_map {K : Obj → Prop} (hF : FOk F) (hH : FHome F) (hA : FApart F) (hK : FFirm F) {w : VM} (M : Entry vm [ta, ca]) (ht : Holds vm.heap ta (.tab t))
    (hc : Holds vm.heap ca (.clo true ref l)) (H : Table.Homog E.sc K) (wf : Dict.WF Table.hashN Table.eqd t) (hkeys : Table.Keys K t)
    (h : objMap E F m vm = .ok w) (hw : w.state = .ready) :
    (∃ cs u t', Dict.entries t = cs.map (·.1) ∧ CallsFor E F m (just vm.heap.brk) (vm.heap.brk :: ca :: ta :: vm.stack) ca vm none cs none u ∧
      BackWith vm u w vm.heap.brk ∧ Holds w.heap vm.heap.brk (.tab t') ∧ Collected E K mapped cs t' ∧
      ∀ x ∈ cs, x.2.2 ≠ .atom .nil → (∀ t, x.2.2 ≠ .tab t) → Holds w.heap x.2.1 x.2.2) ∨
      Disturbed E F m (just vm.heap.brk) (vm.heap.brk :: ca :: ta :: vm.stack) ta ca t vm none := by
  unfold objMap at h
  rw [withTableAndClosure_entry (n := 2) M rfl rfl rfl ht hc] at h
  have p1 : peekAddr (pushT { vm with stack := ca :: ta :: vm.stack }) 1 = .ok vm.heap.brk := rfl
  simp only [p1, Res.ok_bind] at h
  obtain ⟨x, h1, h2⟩ := Res.bind_eq_ok.mp h
  have hx := ret1_state h2 hw
  have skip : ∀ e u, u.state ≠ .ready → mapEntry E F m ta ca vm.heap.brk e u = .ok u := fun e u hu => by unfold mapEntry; rw [if_pos hu]; rfl
  obtain ⟨g0, sc⟩ := own_start M ht hc
  have s0 : Along E F m (just vm.heap.brk) (vm.heap.brk :: ca :: ta :: vm.stack) ta ca t ref l vm none (Built (just vm.heap.brk) vm.heap mapped K vm.heap.brk) []
      (pushT { vm with stack := ca :: ta :: vm.stack }) := by
    refine ⟨[], none, rfl, .start ⟨rfl, fun a c ha => ⟨fun hh => ?_, newobj_holds⟩⟩, g0, Table.new, holds_new M.inv.heap _, Dict.new_wf (by omega), ?_, ?_, by simp, fun a c h hn => absurd h hn⟩
    · rcases holds_newobj hh with hh | ⟨hh, _⟩
      · exact hh
      · exact absurd hh ha
    · intro e he
      rw [show Dict.entries (Table.new : Table.Tbl (Nat × Nat)) = [] from Dict.entries_new _] at he
      cases he
    · rw [show Dict.entries (Table.new : Table.Tbl (Nat × Nat)) = [] from Dict.entries_new _]
      exact .refl _
  rcases dictForeach_visits (t := t) (G := Along E F m (just vm.heap.brk) (vm.heap.brk :: ca :: ta :: vm.stack) ta ca t ref l vm none (Built (just vm.heap.brk) vm.heap mapped K vm.heap.brk))
    (B := fun _ => Disturbed E F m (just vm.heap.brk) (vm.heap.brk :: ca :: ta :: vm.stack) ta ca t vm none) skip (fun d u ⟨_, _, _, _, g, _⟩ => g.tab)
    (map_step hF hH hA hK H wf hkeys sc) s0 g0.ready h1 hx with ⟨cs, acc, e, k, g, tr, b1, b2, b3, b4, b5, _⟩ | ⟨_, _, _, _, b⟩
  · obtain rfl := calls_none k
    have bk := back_ret1 M g g.stack h2
    refine .inl ⟨cs, x, tr, e, k, bk, bk.heap _ _ b1, built_collected H wf hkeys e b2 b3 b4, fun y hy hn hnt => bk.heap _ _ ?_⟩
    have hp : mapped y = some (y.1.2.1, y.2.1) := by
      obtain ⟨y1, y2, y3⟩ := y
      unfold mapped
      split
      · rename_i hq; cases hq; exact absurd rfl hn
      · rename_i hq; cases hq; rfl
    exact b5 y hy _ hp rfl hnt
  · exact .inr b

theorem filter_step {K : Obj → Prop} {ra : Nat} (hra : own ra) (hrt : ∀ d, Holds vm.heap ra d → ∃ t, d = .tab t) (hrs : ra ∉ S ∨ ∀ a, own a → a ∈ S) (hF : FOk F) (hH : FHome F) (hA : FApart F) (hK : FFirm F) (H : Table.Homog E.sc K) (wf : Dict.WF Table.hashN Table.eqd t) (hkeys : Table.Keys K t)
    (sc : Scene vm own S ta ca) (d : List Entry3) (e : Entry3) (r : List Entry3) (u v : VM)
    (hd : Dict.entries t = d ++ e :: r)
    (hg : Along E F m own S ta ca t ref l vm none (Built own vm.heap passed K ra) d u)
    (hu : u.state = .ready) (hb : filterEntry E F m ta ca ra e u = .ok v) (hv : v.state = .ready) :
    Along E F m own S ta ca t ref l vm none (Built own vm.heap passed K ra) (d ++ [e]) v ∨
      Disturbed E F m own S ta ca t vm none := by
  obtain ⟨cs, acc, rfl, k, g, bu⟩ := hg
  obtain rfl := calls_none k
  unfold filterEntry at hb
  rw [if_neg (by simp [hu])] at hb
  obtain ⟨y, hy, hb⟩ := Res.bind_eq_ok.mp hb
  by_cases hyr : y.state = .ready
  swap
  · rw [if_pos hyr] at hb
    cases hb
    exact absurd hv hyr
  rw [if_neg (by simp [hyr])] at hb
  have hy' : closureCall E F m (2 + (none : Option Nat).toList.length)
      { u with stack := (none : Option Nat).toList ++ e.2.2 :: e.2.1 :: ca :: S } = .ok y := by
    rw [← hy]
    unfold pushEntry VM.pushAddr
    rw [g.stack]
    rfl
  obtain ⟨r', c, kc, i, fr, hcl, st, kept⟩ := one_call hF hH hA hK sc g (by rw [hd]; simp) (by simp) hy' hyr
  rw [if_neg (by rw [kc.stack, g.stack]; simp)] at hb
  by_cases htab : Holds y.heap ta (.tab t)
  swap
  · exact .inr ⟨cs, none, e, r, u, y, r', c, hd, k, kc, htab⟩
  left
  have p1 : peekAddr y 1 = .ok r' := by unfold peekAddr; rw [kc.stack]; rfl
  have p2 : peekCell y 1 = .ok c := by
    obtain ⟨mk, q1, q2⟩ := kc.value
    unfold peekCell deref
    rw [p1, Res.ok_bind, q1, ← q2]
    rfl
  rw [p2, Res.ok_bind] at hb
  obtain ⟨tr, b1, b2, b3, b4, b5, b6⟩ := bu
  have htr := kept.own _ _ hra b1
  have hpop : ∀ hp : Heap, pop { y with heap := hp } = { y with heap := hp, stack := S } := by
    intro hp
    unfold pop popN
    rw [if_neg (by rw [kc.stack]; simp)]
    simp only [kc.stack]
    rfl
  by_cases hrej : rejects c = true
  · rw [if_pos hrej] at hb
    simp only [Res.pure_eq, Res.ok.injEq] at hb
    have hno : passed (e, r', c) = none := by
      unfold passed
      unfold rejects at hrej
      split
      · rfl
      · rfl
      · rename_i h1 h2 hq
        cases hq
        split at hrej
        · exact (h1 rfl).elim
        · simp only [beq_iff_eq] at hrej
          subst hrej
          exact (h2 rfl).elim
        · cases hrej
    rw [← hb, show pop y = { y with stack := S } from hpop y.heap]
    have g' := mid_next (acc' := none) g kc i fr hcl st kept htab (by simp)
    refine ⟨cs ++ [(e, r', c)], none, by simp, .call k kc ⟨rfl, fun _ _ _ => Iff.rfl⟩, g', tr, htr, b2, b3, ?_, ?_, fun a d ha hn hh => kept.own _ _ ha (b6 a d ha hn hh)⟩
    · rw [List.filterMap_append]
      simpa [hno] using b4
    · intro x hx o ho hvx hnt
      rcases List.mem_append.mp hx with hx | hx
      · refine kept.held _ _ hnt (.inr ⟨ra, .tab tr, hra, b1, ?_⟩) (b5 x hx o ho hvx hnt)
        have hm : (x.1.1, o) ∈ Dict.entries tr := b4.mem_iff.mpr (List.mem_filterMap.mpr ⟨x, hx, by rw [ho]; rfl⟩)
        have := (entry_child hm).2
        rw [← hvx]
        exact this
      · simp only [List.mem_singleton] at hx
        subst hx
        rw [hno] at ho
        cases ho
  · rw [if_neg hrej] at hb
    obtain ⟨_, _, hb⟩ := Res.bind_eq_ok.mp hb
    obtain ⟨tr', htr', hb⟩ := Res.bind_eq_ok.mp hb
    obtain ⟨t', hput, hb⟩ := Res.bind_eq_ok.mp hb
    have hyes : passed (e, r', c) = some e.2 := by
      unfold passed
      split
      · rename_i hq; cases hq; exact absurd rfl hrej
      · rename_i hq; cases hq; exact absurd rfl hrej
      · rename_i hq; cases hq; rfl
    have res := built_step (pick := passed) (own := own) hra hrt hrs H wf hkeys sc hd k rfl g ⟨tr, b1, b2, b3, b4, b5, b6⟩ kc i fr hcl st kept htab (by
      intro x hx
      rw [hyes] at hx
      cases hx
      exact ⟨rfl, .inr rfl⟩) (tabAt_holds htr') (by rw [hyes]; exact hput)
    simp only [Res.pure_eq, Res.ok.injEq] at hb
    rw [← hb, hpop]
    exact ⟨_, none, by simp, res⟩

/-- **C77** `filter(t, f)`: likewise; the new table has the entries for which the result of the call is neither nil nor the integer 0, and nothing else; values other
than tables are those of the table visited. -/
theorem C77_filter {K : Obj → Prop} (hF : FOk F) (hH : FHome F) (hA : FApart F) (hK : FFirm F) {w : VM} (M : Entry vm [ta, ca]) (ht : Holds vm.heap ta (.tab t))
    (hc : Holds vm.heap ca (.clo true ref l)) (H : Table.Homog E.sc K) (wf : Dict.WF Table.hashN Table.eqd t) (hkeys : Table.Keys K t)
    (h : objFilter E F m vm = .ok w) (hw : w.state = .ready) :
    (∃ cs u t', Dict.entries t = cs.map (·.1) ∧ CallsFor E F m (just vm.heap.brk) (vm.heap.brk :: ca :: ta :: vm.stack) ca vm none cs none u ∧
      BackWith vm u w vm.heap.brk ∧ Holds w.heap vm.heap.brk (.tab t') ∧ Collected E K passed cs t' ∧
      ∀ x ∈ cs, passed x ≠ none → ∀ c, (∀ t, c ≠ .tab t) → Holds vm.heap x.1.2.2 c → Holds w.heap x.1.2.2 c) ∨
      Disturbed E F m (just vm.heap.brk) (vm.heap.brk :: ca :: ta :: vm.stack) ta ca t vm none := by
  unfold objFilter at h
  rw [withTableAndClosure_entry (n := 2) M rfl rfl rfl ht hc] at h
  have p1 : peekAddr (pushT { vm with stack := ca :: ta :: vm.stack }) 1 = .ok vm.heap.brk := rfl
  simp only [p1, Res.ok_bind] at h
  obtain ⟨x, h1, h2⟩ := Res.bind_eq_ok.mp h
  have hx := ret1_state h2 hw
  have skip : ∀ e u, u.state ≠ .ready → filterEntry E F m ta ca vm.heap.brk e u = .ok u := fun e u hu => by unfold filterEntry; rw [if_pos hu]; rfl
  obtain ⟨g0, sc⟩ := own_start M ht hc
  have s0 : Along E F m (just vm.heap.brk) (vm.heap.brk :: ca :: ta :: vm.stack) ta ca t ref l vm none (Built (just vm.heap.brk) vm.heap passed K vm.heap.brk) []
      (pushT { vm with stack := ca :: ta :: vm.stack }) := by
    refine ⟨[], none, rfl, .start ⟨rfl, fun a c ha => ⟨fun hh => ?_, newobj_holds⟩⟩, g0, Table.new, holds_new M.inv.heap _, Dict.new_wf (by omega), ?_, ?_, by simp, fun a c h hn => absurd h hn⟩
    · rcases holds_newobj hh with hh | ⟨hh, _⟩
      · exact hh
      · exact absurd hh ha
    · intro e he
      rw [show Dict.entries (Table.new : Table.Tbl (Nat × Nat)) = [] from Dict.entries_new _] at he
      cases he
    · rw [show Dict.entries (Table.new : Table.Tbl (Nat × Nat)) = [] from Dict.entries_new _]
      exact .refl _
  rcases dictForeach_visits (t := t) (G := Along E F m (just vm.heap.brk) (vm.heap.brk :: ca :: ta :: vm.stack) ta ca t ref l vm none (Built (just vm.heap.brk) vm.heap passed K vm.heap.brk))
    (B := fun _ => Disturbed E F m (just vm.heap.brk) (vm.heap.brk :: ca :: ta :: vm.stack) ta ca t vm none) skip (fun d u ⟨_, _, _, _, g, _⟩ => g.tab)
    (filter_step rfl (brk_none sc.inv.heap) (.inr fun a ha => by unfold just at ha; simp [ha]) hF hH hA hK H wf hkeys sc) s0 g0.ready h1 hx with ⟨cs, acc, e, k, g, tr, b1, b2, b3, b4, b5, _⟩ | ⟨_, _, _, _, b⟩
  · obtain rfl := calls_none k
    have bk := back_ret1 M g g.stack h2
    refine .inl ⟨cs, x, tr, e, k, bk, bk.heap _ _ b1, built_collected H wf hkeys e b2 b3 b4, fun y hy hn c hnt hh => bk.heap _ _ ?_⟩
    obtain ⟨c', hc'⟩ := (entry_live g.inv g.tab (e := y.1) (by rw [e]; exact List.mem_map_of_mem hy)).2
    have := g.stays.same _ c hnt hh c' hc'
    subst this
    exact hc'
  · exact .inr b

/-! ### After a failure -/

theorem foreach_fails (hF : FOk F) (hH : FHome F) (hA : FApart F) (hK : FFirm F) (M : Entry vm [ta, ca]) {d : List Entry3} {e : Entry3} {r : List Entry3} {u v : VM}
    (hd : Dict.entries t = d ++ e :: r) (hg : Along E F m none' (ca :: ta :: vm.stack) ta ca t ref l vm none (fun _ _ => True) d u)
    (hu : u.state = .ready) (hb : foreachEntry E F m ca e u = .ok v) (hv : v.state ≠ .ready) : Failed E F m none' (ca :: ta :: vm.stack) ca t vm none v := by
  obtain ⟨cs, acc, rfl, k, g, _⟩ := hg
  obtain rfl := calls_none k
  unfold foreachEntry at hb
  rw [if_neg (by simp [hu])] at hb
  obtain ⟨y, hy, hb⟩ := Res.bind_eq_ok.mp hb
  have hy' : closureCall E F m (2 + (none : Option Nat).toList.length) { u with stack := (none : Option Nat).toList ++ e.2.2 :: e.2.1 :: ca :: ca :: ta :: vm.stack } = .ok y := by
    rw [← hy]
    unfold pushEntry VM.pushAddr
    rw [g.stack]
    rfl
  by_cases hyr : y.state = .ready
  · rw [if_neg (by simp [hyr])] at hb
    obtain ⟨r', c, kc, _⟩ := one_call hF hH hA hK (scene_none M) g (by rw [hd]; simp) (by simp) hy' hyr
    unfold pop at hb
    rw [if_neg (by rw [kc.stack]; simp)] at hb
    cases hb
    exact absurd hyr hv
  · rw [if_pos hyr] at hb
    cases hb
    exact ⟨cs, none, e, r, u, hd, k, hy', hv⟩

theorem reduce_fails {a0 : Nat} (hF : FOk F) (hH : FHome F) (hA : FApart F) (hK : FFirm F) (sc : Scene vm none' S ta ca) {d : List Entry3} {e : Entry3} {r : List Entry3} {u v : VM}
    (hd : Dict.entries t = d ++ e :: r) (hg : Along E F m none' S ta ca t ref l vm (some a0) (fun _ _ => True) d u)
    (hu : u.state = .ready) (hb : reduceEntry E F m ca e u = .ok v) (hv : v.state ≠ .ready) : Failed E F m none' S ca t vm (some a0) v := by
  obtain ⟨cs, acc, rfl, k, g, _⟩ := hg
  obtain ⟨a, rfl⟩ := Option.isSome_iff_exists.mp (calls_isSome k)
  have hst : u.stack = a :: S := g.stack
  unfold reduceEntry at hb
  have hpk : peekAddr u 1 = .ok a := by unfold peekAddr; rw [hst]; rfl
  have hpop : pop u = { u with stack := S } := by unfold pop popN; rw [hst]; rfl
  rw [if_neg (by simp [hu]), hpk, Res.ok_bind, hpop] at hb
  obtain ⟨y, hy, hb⟩ := Res.bind_eq_ok.mp hb
  by_cases hyr : y.state = .ready
  · rw [if_neg (by simp [hyr])] at hb
    obtain ⟨r', c, kc, _⟩ := one_call hF hH hA hK sc g (e := e) (by rw [hd]; simp) (fun _ _ h => h) hy hyr
    rw [if_neg (by rw [kc.stack]; simp)] at hb
    simp only [Res.pure_eq, Res.ok.injEq] at hb
    subst hb
    exact absurd hyr hv
  · rw [if_pos hyr] at hb
    cases hb
    exact ⟨cs, some a, e, r, u, hd, k, hy, hv⟩

theorem map_fails {K : Obj → Prop} (hF : FOk F) (hH : FHome F) (hA : FApart F) (hK : FFirm F)
    (sc : Scene vm (just vm.heap.brk) (vm.heap.brk :: ca :: ta :: vm.stack) ta ca) {d : List Entry3} {e : Entry3} {r : List Entry3} {u v : VM} (hd : Dict.entries t = d ++ e :: r)
    (hg : Along E F m (just vm.heap.brk) (vm.heap.brk :: ca :: ta :: vm.stack) ta ca t ref l vm none (Built (just vm.heap.brk) vm.heap mapped K vm.heap.brk) d u)
    (hu : u.state = .ready) (hb : mapEntry E F m ta ca vm.heap.brk e u = .ok v) (hv : v.state ≠ .ready) : Failed E F m (just vm.heap.brk) (vm.heap.brk :: ca :: ta :: vm.stack) ca t vm none v := by
  obtain ⟨cs, acc, rfl, k, g, bu⟩ := hg
  obtain rfl := calls_none k
  unfold mapEntry at hb
  rw [if_neg (by simp [hu])] at hb
  obtain ⟨y, hy, hb⟩ := Res.bind_eq_ok.mp hb
  have hy' : closureCall E F m (2 + (none : Option Nat).toList.length)
      { u with stack := (none : Option Nat).toList ++ e.2.2 :: e.2.1 :: ca :: vm.heap.brk :: ca :: ta :: vm.stack } = .ok y := by
    rw [← hy]
    unfold pushEntry VM.pushAddr
    rw [g.stack]
    rfl
  by_cases hyr : y.state = .ready
  swap
  · rw [if_pos hyr] at hb
    cases hb
    exact ⟨cs, none, e, r, u, hd, k, hy', hv⟩
  rw [if_neg (by simp [hyr])] at hb
  obtain ⟨r', c, kc, _⟩ := one_call hF hH hA hK sc g (by rw [hd]; simp) (by simp) hy' hyr
  rw [if_neg (by rw [kc.stack, g.stack]; simp)] at hb
  have hpop : ∀ hp : Heap, (pop { y with heap := hp }).state = .ready := fun hp => by
    unfold pop
    rw [if_neg (by rw [kc.stack]; simp)]
    exact hyr
  refine absurd ?_ hv
  obtain ⟨_, _, hb⟩ := Res.bind_eq_ok.mp hb
  obtain ⟨_, _, hb⟩ := Res.bind_eq_ok.mp hb
  obtain ⟨_, _, hb⟩ := Res.bind_eq_ok.mp hb
  obtain ⟨tr, _, hb⟩ := Res.bind_eq_ok.mp hb
  obtain ⟨t', _, hb⟩ := Res.bind_eq_ok.mp hb
  simp only [Res.pure_eq, Res.ok.injEq] at hb
  rw [← hb]
  exact hpop _

theorem filter_fails {K : Obj → Prop} {ra : Nat} (hF : FOk F) (hH : FHome F) (hA : FApart F) (hK : FFirm F)
    (sc : Scene vm own S ta ca) {d : List Entry3} {e : Entry3} {r : List Entry3} {u v : VM} (hd : Dict.entries t = d ++ e :: r)
    (hg : Along E F m own S ta ca t ref l vm none (Built own vm.heap passed K ra) d u)
    (hu : u.state = .ready) (hb : filterEntry E F m ta ca ra e u = .ok v) (hv : v.state ≠ .ready) : Failed E F m own S ca t vm none v := by
  obtain ⟨cs, acc, rfl, k, g, bu⟩ := hg
  obtain rfl := calls_none k
  unfold filterEntry at hb
  rw [if_neg (by simp [hu])] at hb
  obtain ⟨y, hy, hb⟩ := Res.bind_eq_ok.mp hb
  have hy' : closureCall E F m (2 + (none : Option Nat).toList.length)
      { u with stack := (none : Option Nat).toList ++ e.2.2 :: e.2.1 :: ca :: S } = .ok y := by
    rw [← hy]
    unfold pushEntry VM.pushAddr
    rw [g.stack]
    rfl
  by_cases hyr : y.state = .ready
  swap
  · rw [if_pos hyr] at hb
    cases hb
    exact ⟨cs, none, e, r, u, hd, k, hy', hv⟩
  rw [if_neg (by simp [hyr])] at hb
  obtain ⟨r', c, kc, _⟩ := one_call hF hH hA hK sc g (by rw [hd]; simp) (by simp) hy' hyr
  rw [if_neg (by rw [kc.stack, g.stack]; simp)] at hb
  have hpop : ∀ hp : Heap, (pop { y with heap := hp }).state = .ready := fun hp => by
    unfold pop
    rw [if_neg (by rw [kc.stack]; simp)]
    exact hyr
  refine absurd ?_ hv
  obtain ⟨c', _, hb⟩ := Res.bind_eq_ok.mp hb
  by_cases hrej : rejects c' = true
  · rw [if_pos hrej] at hb
    simp only [Res.pure_eq, Res.ok.injEq] at hb
    rw [← hb]
    exact hpop y.heap
  · rw [if_neg hrej] at hb
    obtain ⟨_, _, hb⟩ := Res.bind_eq_ok.mp hb
    obtain ⟨tr, _, hb⟩ := Res.bind_eq_ok.mp hb
    obtain ⟨t', _, hb⟩ := Res.bind_eq_ok.mp hb
    simp only [Res.pure_eq, Res.ok.injEq] at hb
    rw [← hb]
    exact hpop _

theorem back_state {vm u w : VM} {a : Nat} (b : BackWith vm u w a) : w.state = u.state := by
  have := congrArg VM.state b.eq
  exact this

/-- **C77** `foreach` that ends with the machine not ready: everything went as in `C77_foreach` up to the call for one of the entries; that call failed, and nothing was
done after it but the return of `foreach` itself; no further calls. -/
theorem C77_foreach_stops (hF : FOk F) (hH : FHome F) (hA : FApart F) (hK : FFirm F) {w : VM} (M : Entry vm [ta, ca]) (ht : Holds vm.heap ta (.tab t))
    (hc : Holds vm.heap ca (.clo true ref l)) (h : objForeach E F m vm = .ok w) (hw : w.state ≠ .ready) :
    (∃ x, Failed E F m none' (ca :: ta :: vm.stack) ca t vm none x ∧ ret0 x = .ok w) ∨ Disturbed E F m none' (ca :: ta :: vm.stack) ta ca t vm none := by
  unfold objForeach at h
  rw [withTableAndClosure_entry (n := 2) M rfl rfl rfl ht hc] at h
  obtain ⟨x, h1, h2⟩ := Res.bind_eq_ok.mp h
  have skip : ∀ e u, u.state ≠ .ready → foreachEntry E F m ca e u = .ok u := fun e u hu => by unfold foreachEntry; rw [if_pos hu]; rfl
  have g0 := mid_start M none (by simp) ht hc
  have s0 : Along E F m none' (ca :: ta :: vm.stack) ta ca t ref l vm none (fun _ _ => True) [] { vm with stack := ca :: ta :: vm.stack } :=
    ⟨[], none, rfl, .start (u := { vm with stack := ca :: ta :: vm.stack }) ⟨rfl, fun _ _ _ => Iff.rfl⟩, g0, trivial⟩
  by_cases hx : x.state = .ready
  · rcases dictForeach_visits (t := t) (G := Along E F m none' (ca :: ta :: vm.stack) ta ca t ref l vm none (fun _ _ => True))
        (B := fun _ => Disturbed E F m none' (ca :: ta :: vm.stack) ta ca t vm none) skip (fun d u ⟨_, _, _, _, g, _⟩ => g.tab) (foreach_step hF hH hA hK M)
        s0 g0.ready h1 hx with ⟨cs, acc, e, k, g, _⟩ | ⟨_, _, _, _, b⟩
    · obtain rfl := calls_none k
      obtain ⟨a, b, n⟩ := back_ret0 M g h2
      exact absurd ((back_state b).trans hx) hw
    · exact .inr b
  · rcases dictForeach_stops (t := t) (G := Along E F m none' (ca :: ta :: vm.stack) ta ca t ref l vm none (fun _ _ => True))
        (B := fun _ => Disturbed E F m none' (ca :: ta :: vm.stack) ta ca t vm none) skip (fun d u ⟨_, _, _, _, g, _⟩ => g.tab) (foreach_step hF hH hA hK M)
        s0 g0.ready h1 hx with ⟨d, e, r, u, hd, g, hu, hb⟩ | ⟨_, _, _, _, b⟩
    · exact .inl ⟨x, foreach_fails hF hH hA hK M hd g hu hb hx, h2⟩
    · exact .inr b

/-- **C77** The same for `reduce`. -/
theorem C77_reduce_stops {a0 : Nat} (hF : FOk F) (hH : FHome F) (hA : FApart F) (hK : FFirm F) {w : VM} (M : Entry vm [ta, ca, a0]) (ht : Holds vm.heap ta (.tab t))
    (hc : Holds vm.heap ca (.clo true ref l)) (h : objReduce E F m vm = .ok w) (hw : w.state ≠ .ready) :
    (∃ x, Failed E F m none' (ca :: ta :: vm.stack) ca t vm (some a0) x ∧ ret1 x = .ok w) ∨ Disturbed E F m none' (ca :: ta :: vm.stack) ta ca t vm (some a0) := by
  unfold objReduce at h
  rw [withTableAndClosure_entry (n := 3) M rfl rfl rfl ht hc] at h
  have h3 : lload { vm with stack := ca :: ta :: vm.stack } 3 = .ok (VM.pushAddr { vm with stack := ca :: ta :: vm.stack } a0) := by
    obtain ⟨f, fs, self, p, st, r, q, hf, hs, _, _⟩ := M.ex
    exact lload_at (vm := { vm with stack := ca :: ta :: vm.stack }) hf (by rw [hs]; rfl)
  rw [h3, Res.ok_bind] at h
  obtain ⟨x, h1, h2⟩ := Res.bind_eq_ok.mp h
  have skip : ∀ e u, u.state ≠ .ready → reduceEntry E F m ca e u = .ok u := fun e u hu => by unfold reduceEntry; rw [if_pos hu]; rfl
  have hl : Live vm.heap a0 := by
    obtain ⟨f, fs, self, p, st, r, q, hf, hs, _, _⟩ := M.ex
    exact M.inv.frames f (by rw [hf]; simp) a0 (by rw [hs]; simp)
  have g0 := mid_start M (some a0) (by rintro _ ⟨⟩; exact hl) ht hc
  have s0 : Along E F m none' (ca :: ta :: vm.stack) ta ca t ref l vm (some a0) (fun _ _ => True) [] { vm with stack := a0 :: ca :: ta :: vm.stack } :=
    ⟨[], some a0, rfl, .start (u := { vm with stack := a0 :: ca :: ta :: vm.stack }) ⟨rfl, fun _ _ _ => Iff.rfl⟩, g0, trivial⟩
  by_cases hx : x.state = .ready
  · rcases dictForeach_visits (t := t) (G := Along E F m none' (ca :: ta :: vm.stack) ta ca t ref l vm (some a0) (fun _ _ => True))
        (B := fun _ => Disturbed E F m none' (ca :: ta :: vm.stack) ta ca t vm (some a0)) skip (fun d u ⟨_, _, _, _, g, _⟩ => g.tab) (reduce_step hF hH hA hK (scene_none M))
        s0 g0.ready h1 hx with ⟨cs, acc, e, k, g, _⟩ | ⟨_, _, _, _, b⟩
    · obtain ⟨a, rfl⟩ := Option.isSome_iff_exists.mp (calls_isSome k)
      exact absurd ((back_state (back_ret1 M g g.stack h2)).trans hx) hw
    · exact .inr b
  · rcases dictForeach_stops (t := t) (G := Along E F m none' (ca :: ta :: vm.stack) ta ca t ref l vm (some a0) (fun _ _ => True))
        (B := fun _ => Disturbed E F m none' (ca :: ta :: vm.stack) ta ca t vm (some a0)) skip (fun d u ⟨_, _, _, _, g, _⟩ => g.tab) (reduce_step hF hH hA hK (scene_none M))
        s0 g0.ready h1 hx with ⟨d, e, r, u, hd, g, hu, hb⟩ | ⟨_, _, _, _, b⟩
    · exact .inl ⟨x, reduce_fails hF hH hA hK (scene_none M) hd g hu hb hx, h2⟩
    · exact .inr b

/-- **C77** The same for `map`. -/
theorem C77_map_stops {K : Obj → Prop} (hF : FOk F) (hH : FHome F) (hA : FApart F) (hK : FFirm F) {w : VM} (M : Entry vm [ta, ca]) (ht : Holds vm.heap ta (.tab t))
    (hc : Holds vm.heap ca (.clo true ref l)) (H : Table.Homog E.sc K) (wf : Dict.WF Table.hashN Table.eqd t) (hkeys : Table.Keys K t)
    (h : objMap E F m vm = .ok w) (hw : w.state ≠ .ready) :
    (∃ x, Failed E F m (just vm.heap.brk) (vm.heap.brk :: ca :: ta :: vm.stack) ca t vm none x ∧ ret1 x = .ok w) ∨ Disturbed E F m (just vm.heap.brk) (vm.heap.brk :: ca :: ta :: vm.stack) ta ca t vm none := by
  unfold objMap at h
  rw [withTableAndClosure_entry (n := 2) M rfl rfl rfl ht hc] at h
  have p1 : peekAddr (pushT { vm with stack := ca :: ta :: vm.stack }) 1 = .ok vm.heap.brk := rfl
  simp only [p1, Res.ok_bind] at h
  obtain ⟨x, h1, h2⟩ := Res.bind_eq_ok.mp h
  have skip : ∀ e u, u.state ≠ .ready → mapEntry E F m ta ca vm.heap.brk e u = .ok u := fun e u hu => by unfold mapEntry; rw [if_pos hu]; rfl
  obtain ⟨g0, sc⟩ := own_start M ht hc
  have s0 : Along E F m (just vm.heap.brk) (vm.heap.brk :: ca :: ta :: vm.stack) ta ca t ref l vm none (Built (just vm.heap.brk) vm.heap mapped K vm.heap.brk) []
      (pushT { vm with stack := ca :: ta :: vm.stack }) := by
    refine ⟨[], none, rfl, .start ⟨rfl, fun a c ha => ⟨fun hh => ?_, newobj_holds⟩⟩, g0, Table.new, holds_new M.inv.heap _, Dict.new_wf (by omega), ?_, ?_, by simp, fun a c h hn => absurd h hn⟩
    · rcases holds_newobj hh with hh | ⟨hh, _⟩
      · exact hh
      · exact absurd hh ha
    · intro e he
      rw [show Dict.entries (Table.new : Table.Tbl (Nat × Nat)) = [] from Dict.entries_new _] at he
      cases he
    · rw [show Dict.entries (Table.new : Table.Tbl (Nat × Nat)) = [] from Dict.entries_new _]
      exact .refl _
  by_cases hx : x.state = .ready
  · rcases dictForeach_visits (t := t) (G := Along E F m (just vm.heap.brk) (vm.heap.brk :: ca :: ta :: vm.stack) ta ca t ref l vm none (Built (just vm.heap.brk) vm.heap mapped K vm.heap.brk))
        (B := fun _ => Disturbed E F m (just vm.heap.brk) (vm.heap.brk :: ca :: ta :: vm.stack) ta ca t vm none) skip (fun d u ⟨_, _, _, _, g, _⟩ => g.tab)
        (map_step hF hH hA hK H wf hkeys sc) s0 g0.ready h1 hx with ⟨cs, acc, e, k, g, _⟩ | ⟨_, _, _, _, b⟩
    · obtain rfl := calls_none k
      exact absurd ((back_state (back_ret1 M g g.stack h2)).trans hx) hw
    · exact .inr b
  · rcases dictForeach_stops (t := t) (G := Along E F m (just vm.heap.brk) (vm.heap.brk :: ca :: ta :: vm.stack) ta ca t ref l vm none (Built (just vm.heap.brk) vm.heap mapped K vm.heap.brk))
        (B := fun _ => Disturbed E F m (just vm.heap.brk) (vm.heap.brk :: ca :: ta :: vm.stack) ta ca t vm none) skip (fun d u ⟨_, _, _, _, g, _⟩ => g.tab)
        (map_step hF hH hA hK H wf hkeys sc) s0 g0.ready h1 hx with ⟨d, e, r, u, hd, g, hu, hb⟩ | ⟨_, _, _, _, b⟩
    · exact .inl ⟨x, map_fails hF hH hA hK sc hd g hu hb hx, h2⟩
    · exact .inr b

/-- **C77** The same for `filter`. -/
theorem C77_filter_stops {K : Obj → Prop} (hF : FOk F) (hH : FHome F) (hA : FApart F) (hK : FFirm F) {w : VM} (M : Entry vm [ta, ca]) (ht : Holds vm.heap ta (.tab t))
    (hc : Holds vm.heap ca (.clo true ref l)) (H : Table.Homog E.sc K) (wf : Dict.WF Table.hashN Table.eqd t) (hkeys : Table.Keys K t)
    (h : objFilter E F m vm = .ok w) (hw : w.state ≠ .ready) :
    (∃ x, Failed E F m (just vm.heap.brk) (vm.heap.brk :: ca :: ta :: vm.stack) ca t vm none x ∧ ret1 x = .ok w) ∨ Disturbed E F m (just vm.heap.brk) (vm.heap.brk :: ca :: ta :: vm.stack) ta ca t vm none := by
  unfold objFilter at h
  rw [withTableAndClosure_entry (n := 2) M rfl rfl rfl ht hc] at h
  have p1 : peekAddr (pushT { vm with stack := ca :: ta :: vm.stack }) 1 = .ok vm.heap.brk := rfl
  simp only [p1, Res.ok_bind] at h
  obtain ⟨x, h1, h2⟩ := Res.bind_eq_ok.mp h
  have skip : ∀ e u, u.state ≠ .ready → filterEntry E F m ta ca vm.heap.brk e u = .ok u := fun e u hu => by unfold filterEntry; rw [if_pos hu]; rfl
  obtain ⟨g0, sc⟩ := own_start M ht hc
  have s0 : Along E F m (just vm.heap.brk) (vm.heap.brk :: ca :: ta :: vm.stack) ta ca t ref l vm none (Built (just vm.heap.brk) vm.heap passed K vm.heap.brk) []
      (pushT { vm with stack := ca :: ta :: vm.stack }) := by
    refine ⟨[], none, rfl, .start ⟨rfl, fun a c ha => ⟨fun hh => ?_, newobj_holds⟩⟩, g0, Table.new, holds_new M.inv.heap _, Dict.new_wf (by omega), ?_, ?_, by simp, fun a c h hn => absurd h hn⟩
    · rcases holds_newobj hh with hh | ⟨hh, _⟩
      · exact hh
      · exact absurd hh ha
    · intro e he
      rw [show Dict.entries (Table.new : Table.Tbl (Nat × Nat)) = [] from Dict.entries_new _] at he
      cases he
    · rw [show Dict.entries (Table.new : Table.Tbl (Nat × Nat)) = [] from Dict.entries_new _]
      exact .refl _
  by_cases hx : x.state = .ready
  · rcases dictForeach_visits (t := t) (G := Along E F m (just vm.heap.brk) (vm.heap.brk :: ca :: ta :: vm.stack) ta ca t ref l vm none (Built (just vm.heap.brk) vm.heap passed K vm.heap.brk))
        (B := fun _ => Disturbed E F m (just vm.heap.brk) (vm.heap.brk :: ca :: ta :: vm.stack) ta ca t vm none) skip (fun d u ⟨_, _, _, _, g, _⟩ => g.tab)
        (filter_step rfl (brk_none sc.inv.heap) (.inr fun a ha => by unfold just at ha; simp [ha]) hF hH hA hK H wf hkeys sc) s0 g0.ready h1 hx with ⟨cs, acc, e, k, g, _⟩ | ⟨_, _, _, _, b⟩
    · obtain rfl := calls_none k
      exact absurd ((back_state (back_ret1 M g g.stack h2)).trans hx) hw
    · exact .inr b
  · rcases dictForeach_stops (t := t) (G := Along E F m (just vm.heap.brk) (vm.heap.brk :: ca :: ta :: vm.stack) ta ca t ref l vm none (Built (just vm.heap.brk) vm.heap passed K vm.heap.brk))
        (B := fun _ => Disturbed E F m (just vm.heap.brk) (vm.heap.brk :: ca :: ta :: vm.stack) ta ca t vm none) skip (fun d u ⟨_, _, _, _, g, _⟩ => g.tab)
        (filter_step rfl (brk_none sc.inv.heap) (.inr fun a ha => by unfold just at ha; simp [ha]) hF hH hA hK H wf hkeys sc) s0 g0.ready h1 hx with ⟨d, e, r, u, hd, g, hu, hb⟩ | ⟨_, _, _, _, b⟩
    · exact .inl ⟨x, filter_fails hF hH hA hK sc hd g hu hb hx, h2⟩
    · exact .inr b

end Buzz.Props
