import Verif.NbrMake
import Verif.Props.HofMachine
import Verif.Props.Hof

/-
`foreach`, `map`, `reduce`, `filter`, `kin` and `nonkin` of `neighbors` on the machine (C78).  `CallFor`, `CallsFor`, `BackWith` and `Collected` are as for C77.
-/
namespace Buzz.Props

open Buzz.VM Buzz.F32 Buzz.Msg Buzz.Heap

/-! ### Specification -/

/-- A sequence of calls of the script's function `ca` from machine `vm`, each on the machine left by the one before; the results stay on the stack. -/
inductive PiledCalls (E : Env) (F : CFuns) (m : Nat) (ca : Nat) (vm : VM) : List (Entry3 × Nat × Cell) → VM → Prop where
  | start : PiledCalls E F m ca vm [] vm
  | call {cs : List (Entry3 × Nat × Cell)} {e : Entry3} {u v : VM} {r : Nat} {c : Cell} : PiledCalls E F m ca vm cs u →
      CallFor E F m vm.heap u.stack ca none e u v r c → PiledCalls E F m ca vm (cs ++ [(e, r, c)]) v

/-- A call has changed the table that is being visited. -/
def PiledDisturbed (E : Env) (F : CFuns) (m : Nat) (ta ca : Nat) (t : Table.Tbl (Nat × Nat)) (vm : VM) : Prop :=
  ∃ cs e rest u v r c, Dict.entries t = cs.map (·.1) ++ e :: rest ∧ PiledCalls E F m ca vm cs u ∧ CallFor E F m vm.heap u.stack ca none e u v r c ∧
    ¬ Holds v.heap ta (.tab t)

/-- The call for one of the entries, before which everything went as described, has ended on machine `x`, which is not ready. -/
def PiledFailed (E : Env) (F : CFuns) (m : Nat) (ca : Nat) (t : Table.Tbl (Nat × Nat)) (vm x : VM) : Prop :=
  ∃ cs e rest u, Dict.entries t = cs.map (·.1) ++ e :: rest ∧ PiledCalls E F m ca vm cs u ∧
    closureCall E F m 2 { u with stack := e.2.2 :: e.2.1 :: ca :: u.stack } = .ok x ∧ x.state ≠ .ready

variable {E : Env} {F : CFuns} {m : Nat} {own : Nat → Prop} {S : List Nat} {sa pa ca : Nat} {t : Table.Tbl (Nat × Nat)} {ref : Int} {l : List Nat} {vm : VM}

/-! ### The beginning -/

theorem method_load {vm u : VM} {args : List Nat} (M : Method vm sa args) (p : Prepared vm u) {k a : Nat} (hk : (sa :: args)[k]? = some a) : lload u k = .ok (pushAddr u a) := by
  obtain ⟨f, fs, b, st, r, q, hf, hs, _, _⟩ := M.ex
  exact lload_at (p.frames.trans hf) (by rw [hs]; exact hk)

theorem arg_live {vm : VM} {args : List Nat} (M : Method vm sa args) {a : Nat} (h : a ∈ args) : Live vm.heap a := by
  obtain ⟨f, fs, p, st, r, q, hf, hs, _, _⟩ := M.ex
  exact M.inv.frames f (by rw [hf]; simp) a (by rw [hs]; simp [h])

theorem cellAt_of {u : VM} {a : Nat} {c : Cell} (h : Holds u.heap a c) : cellAt u a = .ok c := by
  obtain ⟨mk, h1, rfl⟩ := h
  unfold cellAt deref
  rw [h1]
  rfl

theorem peek_push {u : VM} {a : Nat} {c : Cell} (h : Holds u.heap a c) : peekCell (pushAddr u a) 1 = .ok c ∧ peekAddr (pushAddr u a) 1 = .ok a := by
  have h0 : peekAddr (pushAddr u a) 1 = .ok a := rfl
  refine ⟨?_, h0⟩
  obtain ⟨mk, h1, rfl⟩ := h
  unfold peekCell deref
  rw [h0, Res.ok_bind, show (pushAddr u a).heap.objs = u.heap.objs from rfl, h1]
  rfl

theorem nbrPoses_eq {args : List Nat} (M : Method vm sa args) {u : VM} (q : Prepared vm u) (hp : PosesAt E vm sa pa) (hl : Live vm.heap pa) (hz : u.strings.id2str.length ≤ 65533) :
    ∃ w, nbrPoses E u = .ok w ∧ Prepared u w ∧ w.stack = pa :: u.stack ∧ w.strings.id2str.length ≤ u.strings.id2str.length + 1 ∧
      ∀ a c, Holds w.heap a c → Holds u.heap a c ∨ children c = [] := by
  obtain ⟨d, hd⟩ := hl
  obtain ⟨u1, u', e1, e2, p, s, z, n⟩ := poses_get (E := E) q.inv (hp.prep q) ⟨d, q.heap _ _ hd⟩ hz
  refine ⟨u', ?_, p, s, z, n⟩
  unfold nbrPoses
  rw [method_load M q (k := 0) rfl, Res.ok_bind, e1, Res.ok_bind, e2]

theorem peek_at {u : VM} {a : Nat} {s : List Nat} (h : u.stack = a :: s) : peekAddr u 1 = .ok a := by
  unfold peekAddr
  rw [h]
  rfl

/-- Nothing is owned. -/
theorem mid_of {u : VM} (i : VInv u) (hr : u.state = .ready) {acc : Option Nat} (hs : u.stack = acc.toList ++ S) (ht : Holds u.heap pa (.tab t))
    (hc : Holds u.heap ca (.clo true ref l)) : Mid u none' S pa ca t ref l acc u where
  inv := i
  ready := hr
  stack := hs
  free := ⟨fun _ _ _ _ h => h, fun _ _ h => h, fun _ _ h => h, fun _ _ _ _ _ _ h => h, fun _ h => h.elim⟩
  tab := ht
  clo := hc
  stays := .refl _
  rest := rfl
  frames := rfl
  pc := rfl
  code := rfl
  root := fun _ h => h.elim

/-! ### `foreach` -/

theorem nforeach_eq (M : Method vm sa [ca]) (hp : PosesAt E vm sa pa) (ht : Holds vm.heap pa (.tab t)) (hc : Holds vm.heap ca (.clo true ref l))
    (hz : vm.strings.id2str.length ≤ 65533) :
    ∃ vm0, nbrForeach E F m vm = dictForeach (nbrEach E F m ca) pa m vm0 >>= ret0 ∧ Prepared vm vm0 ∧ vm0.stack = ca :: pa :: vm.stack := by
  obtain ⟨u, e, p, s, _, _⟩ := nbrPoses_eq (E := E) M (Prepared.refl M.inv) hp ⟨_, ht⟩ hz
  refine ⟨pushAddr u ca, ?_, p.push ⟨_, p.heap _ _ hc⟩, by show ca :: u.stack = _; rw [s]⟩
  unfold nbrForeach
  rw [M.entry.lnum, Res.ok_bind, if_neg (by simp), e, Res.ok_bind, peek_at s, Res.ok_bind, cellAt_of (p.heap _ _ ht), Res.ok_bind]
  simp only
  rw [method_load M p (k := 1) (a := ca) rfl, Res.ok_bind, (peek_push (p.heap _ _ hc)).1, Res.ok_bind]
  simp only
  rw [(peek_push (p.heap _ _ hc)).2, Res.ok_bind]

/-- What holds after the calls for the entries `d`. -/
def PiledAlong (E : Env) (F : CFuns) (m : Nat) (pa ca : Nat) (t : Table.Tbl (Nat × Nat)) (ref : Int) (l : List Nat) (vm : VM) (d : List Entry3) (u : VM) : Prop :=
  ∃ cs, d = cs.map (·.1) ∧ PiledCalls E F m ca vm cs u ∧ Mid vm none' u.stack pa ca t ref l none u ∧ ca ∈ u.stack

theorem nforeach_step (hF : FOk F) (hH : FHome F) (hA : FApart F) (hK : FFirm F) (i0 : VInv vm) (d : List Entry3) (e : Entry3) (r : List Entry3) (u v : VM)
    (hd : Dict.entries t = d ++ e :: r) (hg : PiledAlong E F m pa ca t ref l vm d u) (hu : u.state = .ready) (hb : nbrEach E F m ca e u = .ok v) (hv : v.state = .ready) :
    PiledAlong E F m pa ca t ref l vm (d ++ [e]) v ∨ PiledDisturbed E F m pa ca t vm := by
  obtain ⟨cs, rfl, k, g, hca⟩ := hg
  unfold nbrEach at hb
  rw [if_neg (by simp [hu])] at hb
  have hy : closureCall E F m (2 + (none : Option Nat).toList.length) { u with stack := (none : Option Nat).toList ++ e.2.2 :: e.2.1 :: ca :: u.stack } = .ok v := hb
  obtain ⟨r', c, kc, i, fr, hcl, st, kept⟩ := one_call hF hH hA hK ⟨i0, id, id, hca⟩ g (by rw [hd]; simp) (by simp) hy hv
  by_cases htab : Holds v.heap pa (.tab t)
  · left
    refine ⟨cs ++ [(e, r', c)], by simp, .call k kc, ⟨i, hv, rfl, fr, htab, hcl, st, kc.rest.trans g.rest, kc.frames.trans g.frames, kc.pc.trans g.pc, kc.code.trans g.code, fun _ h => h.elim⟩, ?_⟩
    rw [kc.stack]
    exact List.mem_cons_of_mem _ hca
  · exact .inr ⟨cs, e, r, u, v, r', c, hd, k, kc, htab⟩

theorem nforeach_skip (e : Entry3) (u : VM) (hu : u.state ≠ .ready) : nbrEach E F m ca e u = .ok u := by
  unfold nbrEach
  rw [if_pos hu]
  rfl

/-- **C78** `neighbors.foreach(f)` with a function of the script, where the field `poses` of the table is the table `pa`: when it ends with the machine ready, `f` has been
called once for each entry of `pa`, in the order of the table, with the entry's key and value, each time on the machine left by the call before (with the results so far
on its stack); and nil has been returned.  Otherwise a call has changed the table `pa`. -/
theorem C78_foreach (hF : FOk F) (hH : FHome F) (hA : FApart F) (hK : FFirm F) {w : VM} (M : Method vm sa [ca]) (hp : PosesAt E vm sa pa) (ht : Holds vm.heap pa (.tab t))
    (hc : Holds vm.heap ca (.clo true ref l)) (hz : vm.strings.id2str.length ≤ 65533) (h : nbrForeach E F m vm = .ok w) (hw : w.state = .ready) :
    ∃ vm0, Prepared vm vm0 ∧ vm0.stack = ca :: pa :: vm.stack ∧
      ((∃ cs u a, Dict.entries t = cs.map (·.1) ∧ PiledCalls E F m ca vm0 cs u ∧ BackWith vm0 u w a ∧ Holds w.heap a (.atom .nil)) ∨ PiledDisturbed E F m pa ca t vm0) := by
  obtain ⟨vm0, e0, p, s⟩ := nforeach_eq (E := E) (F := F) (m := m) M hp ht hc hz
  refine ⟨vm0, p, s, ?_⟩
  rw [e0] at h
  obtain ⟨x, h1, h2⟩ := Res.bind_eq_ok.mp h
  have hx := ret0_state h2 hw
  have M0 := (p.method M).entry
  have g0 : Mid vm0 none' vm0.stack pa ca t ref l none vm0 := mid_of p.inv M0.ready rfl (p.heap _ _ ht) (p.heap _ _ hc)
  rcases dictForeach_visits (t := t) (G := PiledAlong E F m pa ca t ref l vm0) (B := fun _ => PiledDisturbed E F m pa ca t vm0) nforeach_skip
    (fun d u ⟨_, _, _, g, _⟩ => g.tab) (nforeach_step hF hH hA hK p.inv) ⟨[], rfl, .start, g0, by rw [s]; simp⟩ M0.ready h1 hx with ⟨cs, e, k, g, _⟩ | ⟨_, _, _, _, b⟩
  · obtain ⟨a, b, n⟩ := back_ret0 M0 g h2
    exact .inl ⟨cs, x, a, e, k, b, n⟩
  · exact .inr b

/-- **C78** `neighbors.foreach` that ends with the machine not ready: everything went as in `C78_foreach` up to the call for one of the entries; that call failed, and
nothing was done after it but the return of `foreach` itself; no further calls. -/
theorem C78_foreach_stops (hF : FOk F) (hH : FHome F) (hA : FApart F) (hK : FFirm F) {w : VM} (M : Method vm sa [ca]) (hp : PosesAt E vm sa pa) (ht : Holds vm.heap pa (.tab t))
    (hc : Holds vm.heap ca (.clo true ref l)) (hz : vm.strings.id2str.length ≤ 65533) (h : nbrForeach E F m vm = .ok w) (hw : w.state ≠ .ready) :
    ∃ vm0, Prepared vm vm0 ∧ vm0.stack = ca :: pa :: vm.stack ∧ ((∃ x, PiledFailed E F m ca t vm0 x ∧ ret0 x = .ok w) ∨ PiledDisturbed E F m pa ca t vm0) := by
  obtain ⟨vm0, e0, p, s⟩ := nforeach_eq (E := E) (F := F) (m := m) M hp ht hc hz
  refine ⟨vm0, p, s, ?_⟩
  rw [e0] at h
  obtain ⟨x, h1, h2⟩ := Res.bind_eq_ok.mp h
  have M0 := (p.method M).entry
  have g0 : Mid vm0 none' vm0.stack pa ca t ref l none vm0 := mid_of p.inv M0.ready rfl (p.heap _ _ ht) (p.heap _ _ hc)
  have s0 : PiledAlong E F m pa ca t ref l vm0 [] vm0 := ⟨[], rfl, .start, g0, by rw [s]; simp⟩
  by_cases hx : x.state = .ready
  · rcases dictForeach_visits (t := t) (G := PiledAlong E F m pa ca t ref l vm0) (B := fun _ => PiledDisturbed E F m pa ca t vm0) nforeach_skip
      (fun d u ⟨_, _, _, g, _⟩ => g.tab) (nforeach_step hF hH hA hK p.inv) s0 M0.ready h1 hx with ⟨cs, e, k, g, _⟩ | ⟨_, _, _, _, b⟩
    · obtain ⟨a, b, n⟩ := back_ret0 M0 g h2
      exact absurd ((back_state b).trans hx) hw
    · exact .inr b
  · rcases dictForeach_stops (t := t) (G := PiledAlong E F m pa ca t ref l vm0) (B := fun _ => PiledDisturbed E F m pa ca t vm0) nforeach_skip
      (fun d u ⟨_, _, _, g, _⟩ => g.tab) (nforeach_step hF hH hA hK p.inv) s0 M0.ready h1 hx with ⟨d, e, r, u, hd, ⟨cs, rfl, k, g, _⟩, hu, hb⟩ | ⟨_, _, _, _, b⟩
    · refine .inl ⟨x, ⟨cs, e, r, u, hd, k, ?_, hx⟩, h2⟩
      unfold nbrEach at hb
      rw [if_neg (by simp [hu])] at hb
      exact hb
    · exact .inr b

/-! ### `reduce` -/

theorem nreduce_eq {a0 : Nat} (M : Method vm sa [ca, a0]) (hp : PosesAt E vm sa pa) (ht : Holds vm.heap pa (.tab t)) (hc : Holds vm.heap ca (.clo true ref l))
    (hz : vm.strings.id2str.length ≤ 65533) :
    ∃ vm0, nbrReduce E F m vm = dictForeach (reduceEntry E F m ca) pa m vm0 >>= ret1 ∧ Prepared vm vm0 ∧ vm0.stack = a0 :: ca :: a0 :: pa :: vm.stack := by
  obtain ⟨u, e, p, s, _, _⟩ := nbrPoses_eq (E := E) M (Prepared.refl M.inv) hp ⟨_, ht⟩ hz
  obtain ⟨d0, hd0⟩ : Live vm.heap a0 := arg_live M (by simp)
  have p1 := p.push (a := a0) ⟨_, p.heap _ _ hd0⟩
  have p2 := p1.push (a := ca) ⟨_, p.heap _ _ hc⟩
  refine ⟨pushAddr (pushAddr (pushAddr u a0) ca) a0, ?_, p2.push ⟨_, p.heap _ _ hd0⟩, by show a0 :: ca :: a0 :: u.stack = _; rw [s]⟩
  unfold nbrReduce
  rw [M.entry.lnum, Res.ok_bind, if_neg (by simp), e, Res.ok_bind, peek_at s, Res.ok_bind, method_load M p (k := 2) (a := a0) rfl, Res.ok_bind,
    (peek_push (p.heap _ _ hd0)).2, Res.ok_bind, cellAt_of (p1.heap _ _ ht), Res.ok_bind]
  simp only
  rw [method_load M p1 (k := 1) (a := ca) rfl, Res.ok_bind, (peek_push (p1.heap _ _ hc)).1, Res.ok_bind]
  simp only
  rw [(peek_push (p1.heap _ _ hc)).2, Res.ok_bind]

theorem nreduce_skip (e : Entry3) (u : VM) (hu : u.state ≠ .ready) : reduceEntry E F m ca e u = .ok u := by
  unfold reduceEntry
  rw [if_pos hu]
  rfl

/-- **C78** `neighbors.reduce(f, a0)`: likewise, `f` has been called once for each entry with key, value and accumulator, first `a0` and then each time the result of the
call before; the last result has been returned (`a0` for an empty table). -/
theorem C78_reduce {a0 : Nat} (hF : FOk F) (hH : FHome F) (hA : FApart F) (hK : FFirm F) {w : VM} (M : Method vm sa [ca, a0]) (hp : PosesAt E vm sa pa)
    (ht : Holds vm.heap pa (.tab t)) (hc : Holds vm.heap ca (.clo true ref l)) (hz : vm.strings.id2str.length ≤ 65533) (h : nbrReduce E F m vm = .ok w) (hw : w.state = .ready) :
    ∃ vm0, Prepared vm vm0 ∧ ((∃ cs u r, Dict.entries t = cs.map (·.1) ∧ CallsFor E F m none' (ca :: a0 :: pa :: vm.stack) ca vm0 (some a0) cs (some r) u ∧ BackWith vm0 u w r) ∨
      Disturbed E F m none' (ca :: a0 :: pa :: vm.stack) pa ca t vm0 (some a0)) := by
  obtain ⟨vm0, e0, p, s⟩ := nreduce_eq (E := E) (F := F) (m := m) M hp ht hc hz
  refine ⟨vm0, p, ?_⟩
  rw [e0] at h
  obtain ⟨x, h1, h2⟩ := Res.bind_eq_ok.mp h
  have hx := ret1_state h2 hw
  have M0 := (p.method M).entry
  have sc : Scene vm0 none' (ca :: a0 :: pa :: vm.stack) pa ca := ⟨p.inv, id, id, by simp⟩
  have g0 : Mid vm0 none' (ca :: a0 :: pa :: vm.stack) pa ca t ref l (some a0) vm0 := mid_of p.inv M0.ready s (p.heap _ _ ht) (p.heap _ _ hc)
  rcases dictForeach_visits (t := t) (G := Along E F m none' (ca :: a0 :: pa :: vm.stack) pa ca t ref l vm0 (some a0) (fun _ _ => True))
    (B := fun _ => Disturbed E F m none' (ca :: a0 :: pa :: vm.stack) pa ca t vm0 (some a0)) nreduce_skip (fun d u ⟨_, _, _, _, g, _⟩ => g.tab) (reduce_step hF hH hA hK sc)
    ⟨[], some a0, rfl, .start ⟨rfl, fun _ _ _ => Iff.rfl⟩, g0, trivial⟩ M0.ready h1 hx with ⟨cs, acc, e, k, g, _⟩ | ⟨_, _, _, _, b⟩
  · obtain ⟨a, rfl⟩ := Option.isSome_iff_exists.mp (calls_isSome k)
    exact .inl ⟨cs, x, a, e, k, back_ret1 M0 g g.stack h2⟩
  · exact .inr b

/-- **C78** The same as `C78_foreach_stops` for `reduce`. -/
theorem C78_reduce_stops {a0 : Nat} (hF : FOk F) (hH : FHome F) (hA : FApart F) (hK : FFirm F) {w : VM} (M : Method vm sa [ca, a0]) (hp : PosesAt E vm sa pa)
    (ht : Holds vm.heap pa (.tab t)) (hc : Holds vm.heap ca (.clo true ref l)) (hz : vm.strings.id2str.length ≤ 65533) (h : nbrReduce E F m vm = .ok w) (hw : w.state ≠ .ready) :
    ∃ vm0, Prepared vm vm0 ∧ ((∃ x, Failed E F m none' (ca :: a0 :: pa :: vm.stack) ca t vm0 (some a0) x ∧ ret1 x = .ok w) ∨
      Disturbed E F m none' (ca :: a0 :: pa :: vm.stack) pa ca t vm0 (some a0)) := by
  obtain ⟨vm0, e0, p, s⟩ := nreduce_eq (E := E) (F := F) (m := m) M hp ht hc hz
  refine ⟨vm0, p, ?_⟩
  rw [e0] at h
  obtain ⟨x, h1, h2⟩ := Res.bind_eq_ok.mp h
  have M0 := (p.method M).entry
  have sc : Scene vm0 none' (ca :: a0 :: pa :: vm.stack) pa ca := ⟨p.inv, id, id, by simp⟩
  have g0 : Mid vm0 none' (ca :: a0 :: pa :: vm.stack) pa ca t ref l (some a0) vm0 := mid_of p.inv M0.ready s (p.heap _ _ ht) (p.heap _ _ hc)
  have s0 : Along E F m none' (ca :: a0 :: pa :: vm.stack) pa ca t ref l vm0 (some a0) (fun _ _ => True) [] vm0 := ⟨[], some a0, rfl, .start ⟨rfl, fun _ _ _ => Iff.rfl⟩, g0, trivial⟩
  by_cases hx : x.state = .ready
  · rcases dictForeach_visits (t := t) (G := Along E F m none' (ca :: a0 :: pa :: vm.stack) pa ca t ref l vm0 (some a0) (fun _ _ => True))
      (B := fun _ => Disturbed E F m none' (ca :: a0 :: pa :: vm.stack) pa ca t vm0 (some a0)) nreduce_skip (fun d u ⟨_, _, _, _, g, _⟩ => g.tab) (reduce_step hF hH hA hK sc)
      s0 M0.ready h1 hx with ⟨cs, acc, e, k, g, _⟩ | ⟨_, _, _, _, b⟩
    · obtain ⟨a, rfl⟩ := Option.isSome_iff_exists.mp (calls_isSome k)
      exact absurd ((back_state (back_ret1 M0 g g.stack h2)).trans hx) hw
    · exact .inr b
  · rcases dictForeach_stops (t := t) (G := Along E F m none' (ca :: a0 :: pa :: vm.stack) pa ca t ref l vm0 (some a0) (fun _ _ => True))
      (B := fun _ => Disturbed E F m none' (ca :: a0 :: pa :: vm.stack) pa ca t vm0 (some a0)) nreduce_skip (fun d u ⟨_, _, _, _, g, _⟩ => g.tab) (reduce_step hF hH hA hK sc)
      s0 M0.ready h1 hx with ⟨d, e, r, u, hd, g, hu, hb⟩ | ⟨_, _, _, _, b⟩
    · exact .inl ⟨x, reduce_fails hF hH hA hK sc hd g hu hb hx, h2⟩
    · exact .inr b

/-! ### The table returned by `map`, `filter`, `kin` and `nonkin` -/

/-- The table `tt` has the methods of `neighbors`, and `md` is its field `poses`. -/
structure IsNeighbors (E : Env) (w : VM) (tt md : Nat) : Prop where
  methods : ∀ f ∈ nbrFields tt, Field E w tt f.1 f.2
  poses : PosesAt E w tt md

/-- Entries of a table `tb` at `tt` that make it one like `neighbors`, with values that are owned. -/
structure Fields (E : Env) (h : Heap) (own : Nat → Prop) (tt md : Nat) (tb : Table.Tbl (Nat × Nat)) : Prop where
  tab : Holds h tt (.tab tb)
  methods : ∀ f ∈ nbrFields tt, ∃ sid y, (Obj.str sid (ascii f.1), y) ∈ Dict.entries tb ∧ Table.get E.sc tb (.str sid (ascii f.1)) = .ok (some y) ∧ own y.2 ∧ y.2 ≠ md ∧ Holds h y.2 f.2
  poses : ∃ sid y, (Obj.str sid (ascii "poses"), y) ∈ Dict.entries tb ∧ Table.get E.sc tb (.str sid (ascii "poses")) = .ok (some y) ∧ y.2 = md

/-- The names of the fields are still registered, as the table has them as keys. -/
theorem Fields.is {w : VM} {tt md : Nat} {tb : Table.Tbl (Nat × Nat)} (i : VInv w) (f : Fields E w.heap own tt md tb) : IsNeighbors E w tt md := by
  have key : ∀ sid x y, (Obj.str sid x, y) ∈ Dict.entries tb → Strman.get w.strings sid = some x := by
    intro sid x y h
    have := ((i.cells _ _ f.tab).2 _ h).2.2.1
    exact i.cells _ _ this
  refine ⟨fun g hg => ?_, ?_⟩
  · obtain ⟨sid, y, h1, h2, _, _, h3⟩ := f.methods g hg
    exact ⟨tb, sid, y, f.tab, key _ _ _ h1, h2, h3⟩
  · obtain ⟨sid, y, h1, h2, h3⟩ := f.poses
    exact ⟨tb, sid, y, f.tab, key _ _ _ h1, h2, h3⟩

/-- All is ready for the calls of `map` and `filter`. -/
structure Laid (E : Env) (vm vm0 : VM) (own : Nat → Prop) (pa ca tt md : Nat) : Prop where
  prep : Prepared vm vm0
  stack : vm0.stack = ca :: tt :: pa :: vm.stack
  data : Holds vm0.heap md (.tab Table.new)
  fields : ∃ tb, Fields E vm0.heap own tt md tb
  ownT : own tt
  ownD : own md
  ne : tt ≠ md
  out : ∀ a, own a → ¬ Live vm.heap a
  free : Free own vm0
  root : Rooted own vm0.heap (ca :: tt :: pa :: vm.stack)

theorem nbrFields_names (tt : Nat) : ∀ f ∈ nbrFields tt, ascii f.1 ≠ ascii "poses" := by
  intro f hf
  obtain ⟨x, hx, rfl⟩ := List.mem_map.mp hf
  clear hf
  show ascii x.1 ≠ ascii "poses"
  revert x
  decide

theorem laid_start (law : Obj.StrcmpLaw E.sc) {body : Nat → Nat → Nat → Entry3 → VM → Res VM} (M : Method vm sa [ca]) (hp : PosesAt E vm sa pa) (ht : Holds vm.heap pa (.tab t))
    (hc : Holds vm.heap ca (.clo true ref l)) (hz : vm.strings.id2str.length + 10 ≤ 65534) :
    ∃ vm0 own tt md, nbrBuild E m body vm = (dictForeach (body pa ca md) pa m vm0 >>= fun v => ret1 (pushAddr v tt)) ∧ Laid E vm vm0 own pa ca tt md := by
  obtain ⟨d, sid, y, hsa, _⟩ := id hp
  obtain ⟨u0, u1, e0, e1, p1, s1, z1, _⟩ := poses_get (E := E) M.inv hp ⟨_, ht⟩ (by omega)
  obtain ⟨u2, t2, e2, m2, s2, z2⟩ := table_made (E := E) law p1.inv (by omega)
  have p2 : Prepared vm u2 := p1.trans m2.prep
  have m3 := m2.addr (a := u1.heap.brk) ⟨_, m2.tab⟩
  have m4 := m3.addr (a := ca) ⟨_, p2.heap _ _ hc⟩
  have hch : ∀ b ∈ children (.tab (Table.new : Table.Tbl (Nat × Nat))), Live u1.heap b := by
    intro b hb
    simp only [children, List.mem_flatMap] at hb
    obtain ⟨e, he, _⟩ := hb
    rw [show Dict.entries (Table.new : Table.Tbl (Nat × Nat)) = [] from Dict.entries_new _] at he
    cases he
  obtain ⟨vm0, tb, ky, e5, m5, s5, po5, in5, h5, o5, z5⟩ := m4.poses (E := E) law (nbrFields_names _) (new_ok _ _) hch (show u2.strings.id2str.length ≤ 65533 by omega)
  let own : Nat → Prop := fun a => a = u1.heap.brk ∨ ∃ e ∈ Dict.entries tb, a = e.2.2
  have ownFresh : ∀ a, own a → ¬ Live u1.heap a := by
    rintro a (rfl | ⟨e, he, rfl⟩) ⟨c, hcc⟩
    · exact m5.fresh c hcc
    · exact (m5.vals e he).2 c hcc
  have ne1 : ∀ a, Live u1.heap a → ¬ own a := fun a h1 h2 => ownFresh a h2 h1
  have hmd : own u2.heap.brk := by
    obtain ⟨e, he, h⟩ := List.mem_map.mp in5
    exact .inr ⟨e, he, (congrArg Prod.snd h).symm⟩
  have hne : u1.heap.brk ≠ u2.heap.brk := by
    intro h
    have := inv_below m2.prep.inv.heap _ _ m2.tab
    omega
  have hst : vm0.stack = ca :: u1.heap.brk :: pa :: vm.stack := by
    rw [s5]
    show ca :: u1.heap.brk :: u2.stack = _
    rw [s2, s1]
  refine ⟨vm0, own, u1.heap.brk, u2.heap.brk, ?_, ⟨p1.trans m5.prep, hst, h5, ⟨tb, m5.tab, ?_, ?_⟩, .inl rfl, hmd, hne, fun a ha ⟨c, hl⟩ => ownFresh a ha ⟨c, p1.heap _ _ hl⟩, ⟨?_, ?_, ?_, ?_, ?_⟩, ?_⟩⟩
  · unfold nbrBuild
    rw [M.entry.lnum, Res.ok_bind, if_neg (by simp), method_load M (Prepared.refl M.inv) (k := 0) rfl, Res.ok_bind, (peek_push hsa).1, Res.ok_bind]
    simp only
    rw [e0, Res.ok_bind, e1, Res.ok_bind, peek_at s1, Res.ok_bind, e2, Res.ok_bind]
    simp only
    rw [if_neg (by rw [p2.state, M.ready]; simp), cellAt_of (u := pushAddr u2 u1.heap.brk) (p2.heap _ _ ht), Res.ok_bind]
    simp only
    have pp : Prepared vm (pushAddr u2 u1.heap.brk) := p2.push ⟨_, m2.tab⟩
    rw [method_load M pp (k := 1) (a := ca) rfl, Res.ok_bind, (peek_push (pp.heap _ _ hc)).1, Res.ok_bind]
    simp only
    rw [(peek_push (pp.heap _ _ hc)).2, Res.ok_bind]
    have e5 : nbrSetPoses E u1.heap.brk (newobj (pushAddr (pushAddr u2 u1.heap.brk) ca).heap (.tab Table.new)).2
      { pushAddr (pushAddr u2 u1.heap.brk) ca with heap := (newobj (pushAddr (pushAddr u2 u1.heap.brk) ca).heap (.tab Table.new)).1 } = .ok vm0 := e5
    rw [e5, Res.ok_bind]
    rfl
  · intro f hf
    obtain ⟨sid, y, g1, g2, g3⟩ := m5.fields f (List.mem_append_left _ hf)
    refine ⟨sid, y, g2, get_mem (key_homog law m5.prep.inv.strings .strs) m5.wf m5.keys g2, .inr ⟨_, g2, rfl⟩, ?_, g3⟩
    intro h
    have hq := holds_inj (h ▸ g3) h5
    obtain ⟨x, _, rfl⟩ := List.mem_map.mp hf
    cases hq
  · obtain ⟨tb', sid, y, q1, q2, q3, q4⟩ := po5
    cases holds_inj q1 m5.tab
    obtain ⟨sid', y', g1, g2, g3⟩ := m5.fields ("poses", .tab Table.new) (List.mem_append_right _ (List.mem_singleton.mpr rfl))
    have : sid = sid' := same_id m5.prep.inv.strings q2 g1
    subst this
    have q5 := get_mem (key_homog law m5.prep.inv.strings .strs) m5.wf m5.keys g2
    rw [q5] at q3
    cases q3
    exact ⟨sid, y, g2, q5, q4⟩
  · intro f hf a ha
    exact ne1 a (p1.inv.frames f (by rw [m5.prep.frames] at hf; exact hf) a ha)
  · intro e he
    exact ne1 _ (p1.inv.gsyms e (by rw [m5.prep.gsyms] at he; exact he))
  · intro a ha
    rw [m5.prep.other] at ha
    refine ne1 a ?_
    rcases ha with ⟨e, he, h⟩ | ⟨e, he, rfl⟩
    · have := p1.inv.other.vstigs e he
      rcases h with h | h | ⟨x, hx, rfl | rfl⟩
      · exact this.1 a h
      · exact this.2.1 a h
      · exact (this.2.2 x hx).1
      · exact (this.2.2 x hx).2
    · exact p1.inv.other.listeners e he
  · intro a c h hn b hb
    rcases m5.made a c h with h | h | h | h
    · exact ne1 b (holds_isSome.mp ((p1.inv.cells a c h).children b hb))
    · exact absurd (.inl h) hn
    · exact absurd (.inr h) hn
    · rintro (rfl | ⟨e, he, rfl⟩)
      · exact (h _ hb).1 rfl
      · exact (h _ hb).2 e he rfl
  · rintro a (rfl | ⟨e, he, rfl⟩)
    · exact inv_below m5.prep.inv.heap _ _ m5.tab
    · obtain ⟨c, hcc⟩ := m5.val_live he
      exact inv_below m5.prep.inv.heap _ _ hcc
  · rintro a (rfl | ⟨e, he, rfl⟩)
    · exact .inl (by simp)
    · exact .inr ⟨u1.heap.brk, .tab tb, by simp, .inl rfl, m5.tab, (entry_child he).2⟩

/-! ### `map` and `filter` -/

/-- What `neighbors.map` keeps of a call: the result, under the key of the entry; nil, too. -/
def allKept (x : Entry3 × Nat × Cell) : Option (Nat × Nat) := some (x.1.2.1, x.2.1)

theorem nmap_step {K : Obj → Prop} {ra : Nat} (hra : own ra) (hrt : ∀ d, Holds vm.heap ra d → ∃ t, d = .tab t) (hrs : ra ∉ S ∨ ∀ a, own a → a ∈ S) (hF : FOk F) (hH : FHome F)
    (hA : FApart F) (hK : FFirm F) (H : Table.Homog E.sc K) (wf : Dict.WF Table.hashN Table.eqd t) (hkeys : Table.Keys K t)
    (sc : Scene vm own S pa ca) (d : List Entry3) (e : Entry3) (r : List Entry3) (u v : VM) (hd : Dict.entries t = d ++ e :: r)
    (hg : Along E F m own S pa ca t ref l vm none (Built own vm.heap allKept K ra) d u) (hu : u.state = .ready) (hb : nbrMapEntry E F m ca ra e u = .ok v) (hv : v.state = .ready) :
    Along E F m own S pa ca t ref l vm none (Built own vm.heap allKept K ra) (d ++ [e]) v ∨ Disturbed E F m own S pa ca t vm none := by
  obtain ⟨cs, acc, rfl, k, g, bu⟩ := hg
  obtain rfl := calls_none k
  unfold nbrMapEntry at hb
  rw [if_neg (by simp [hu])] at hb
  obtain ⟨y, hy, hb⟩ := Res.bind_eq_ok.mp hb
  by_cases hyr : y.state = .ready
  swap
  · rw [if_pos hyr] at hb
    cases hb
    exact absurd hv hyr
  rw [if_neg (by simp [hyr])] at hb
  have hy' : closureCall E F m (2 + (none : Option Nat).toList.length) { u with stack := (none : Option Nat).toList ++ e.2.2 :: e.2.1 :: ca :: S } = .ok y := by
    rw [← hy]
    unfold pushEntry VM.pushAddr
    rw [g.stack]
    rfl
  obtain ⟨r', c, kc, i, fr, hcl, st, kp⟩ := one_call hF hH hA hK sc g (by rw [hd]; simp) (by simp) hy' hyr
  rw [if_neg (by rw [kc.stack, g.stack]; simp)] at hb
  by_cases htab : Holds y.heap pa (.tab t)
  swap
  · exact .inr ⟨cs, none, e, r, u, y, r', c, hd, k, kc, htab⟩
  left
  rw [peek_at kc.stack, Res.ok_bind] at hb
  obtain ⟨_, _, hb⟩ := Res.bind_eq_ok.mp hb
  obtain ⟨tr, htr, hb⟩ := Res.bind_eq_ok.mp hb
  obtain ⟨t', hput, hb⟩ := Res.bind_eq_ok.mp hb
  have res := built_step (pick := allKept) hra hrt hrs H wf hkeys sc hd k rfl g bu kc i fr hcl st kp htab (by
    intro x hx
    cases hx
    exact ⟨rfl, .inl rfl⟩) (tabAt_holds htr) hput
  have hpop : pop { y with heap := Heap.write y.heap ra (.tab t') } = { y with heap := Heap.write y.heap ra (.tab t'), stack := S } := by
    unfold pop popN
    rw [if_neg (by rw [kc.stack]; simp)]
    simp only [kc.stack]
    rfl
  simp only [Res.pure_eq, Res.ok.injEq] at hb
  rw [← hb, hpop]
  exact ⟨_, none, by simp, res⟩

theorem nmap_fails {K : Obj → Prop} {ra : Nat} (hF : FOk F) (hH : FHome F) (hA : FApart F) (hK : FFirm F) (sc : Scene vm own S pa ca) {d : List Entry3} {e : Entry3}
    {r : List Entry3} {u v : VM} (hd : Dict.entries t = d ++ e :: r) (hg : Along E F m own S pa ca t ref l vm none (Built own vm.heap allKept K ra) d u)
    (hu : u.state = .ready) (hb : nbrMapEntry E F m ca ra e u = .ok v) (hv : v.state ≠ .ready) : Failed E F m own S ca t vm none v := by
  obtain ⟨cs, acc, rfl, k, g, bu⟩ := hg
  obtain rfl := calls_none k
  unfold nbrMapEntry at hb
  rw [if_neg (by simp [hu])] at hb
  obtain ⟨y, hy, hb⟩ := Res.bind_eq_ok.mp hb
  have hy' : closureCall E F m (2 + (none : Option Nat).toList.length) { u with stack := (none : Option Nat).toList ++ e.2.2 :: e.2.1 :: ca :: S } = .ok y := by
    rw [← hy]
    unfold pushEntry VM.pushAddr
    rw [g.stack]
    rfl
  by_cases hyr : y.state = .ready
  swap
  · rw [if_pos hyr] at hb
    cases hb
    exact ⟨cs, none, e, r, u, hd, k, hy', hv⟩
  rw [if_neg (by simp [hyr])] at hb
  obtain ⟨r', c, kc, _⟩ := one_call hF hH hA hK sc g (by rw [hd]; simp) (by simp) hy' hyr
  rw [if_neg (by rw [kc.stack, g.stack]; simp), peek_at kc.stack, Res.ok_bind] at hb
  refine absurd ?_ hv
  obtain ⟨_, _, hb⟩ := Res.bind_eq_ok.mp hb
  obtain ⟨tr, _, hb⟩ := Res.bind_eq_ok.mp hb
  obtain ⟨t', _, hb⟩ := Res.bind_eq_ok.mp hb
  simp only [Res.pure_eq, Res.ok.injEq] at hb
  rw [← hb]
  unfold pop
  rw [if_neg (by rw [kc.stack]; simp)]
  exact hyr

theorem nmap_skip {ra : Nat} (e : Entry3) (u : VM) (hu : u.state ≠ .ready) : nbrMapEntry E F m ca ra e u = .ok u := by
  unfold nbrMapEntry
  rw [if_pos hu]
  rfl

theorem nfilter_skip {ra : Nat} (e : Entry3) (u : VM) (hu : u.state ≠ .ready) : filterEntry E F m pa ca ra e u = .ok u := by
  unfold filterEntry
  rw [if_pos hu]
  rfl

variable {vm0 : VM} {tt md : Nat}

theorem Laid.scene (L : Laid E vm vm0 own pa ca tt md) (ht : Holds vm.heap pa (.tab t)) (hc : Holds vm.heap ca (.clo true ref l)) : Scene vm0 own (ca :: tt :: pa :: vm.stack) pa ca :=
  ⟨L.prep.inv, fun h => L.out _ h ⟨_, ht⟩, fun h => L.out _ h ⟨_, hc⟩, by simp⟩

theorem Laid.apart (L : Laid E vm vm0 own pa ca tt md) (i : VInv vm) (ht : Holds vm.heap pa (.tab t)) (hc : Holds vm.heap ca (.clo true ref l)) : md ∉ ca :: tt :: pa :: vm.stack := by
  intro h
  simp only [List.mem_cons] at h
  rcases h with h | h | h | h
  · exact L.out md L.ownD ⟨_, h ▸ hc⟩
  · exact L.ne h.symm
  · exact L.out md L.ownD ⟨_, h ▸ ht⟩
  · exact L.out md L.ownD (i.stack _ h)

theorem Laid.mid (L : Laid E vm vm0 own pa ca tt md) (hr : vm.state = .ready) (ht : Holds vm.heap pa (.tab t)) (hc : Holds vm.heap ca (.clo true ref l)) :
    Mid vm0 own (ca :: tt :: pa :: vm.stack) pa ca t ref l none vm0 :=
  ⟨L.prep.inv, L.prep.state.trans hr, L.stack, L.free, L.prep.heap _ _ ht, L.prep.heap _ _ hc, .refl _, rfl, rfl, rfl, rfl, L.root⟩

theorem Laid.built {pick : Entry3 × Nat × Cell → Option (Nat × Nat)} {K : Obj → Prop} (L : Laid E vm vm0 own pa ca tt md) : Built own vm0.heap pick K md [] vm0 := by
  refine ⟨Table.new, L.data, Dict.new_wf (by decide), ?_, ?_, by simp, fun _ _ _ _ h => h⟩
  · intro e he
    rw [show Dict.entries (Table.new : Table.Tbl (Nat × Nat)) = [] from Dict.entries_new _] at he
    cases he
  · rw [show Dict.entries (Table.new : Table.Tbl (Nat × Nat)) = [] from Dict.entries_new _]
    exact .refl _

/-- The end of `map` and `filter`. -/
theorem Laid.back {args : List Nat} (L : Laid E vm vm0 own pa ca tt md) (M : Method vm sa args) {u w : VM} (g : Mid vm0 own (ca :: tt :: pa :: vm.stack) pa ca t ref l none u)
    (hk : ∀ a c, own a → a ≠ md → Holds vm0.heap a c → Holds u.heap a c) (h : ret1 (pushAddr u tt) = .ok w) : BackWith vm0 u w tt ∧ IsNeighbors E w tt md := by
  obtain ⟨f, fs, p, st, r, q, hf, _, hr, hq⟩ := (L.prep.method M).ex
  obtain ⟨d, hd⟩ := g.inv.rest (p :: st) (by rw [g.rest, hr]; simp) p (by simp)
  have := g.stays.same p _ (by simp) hq d hd
  subst this
  rw [ret1_eq (u := pushAddr u tt) (g.frames.trans hf) (g.rest.trans hr) hd rfl] at h
  cases h
  refine ⟨⟨⟨f, p, st, q, hf, hr, hq, rfl, rfl, rfl⟩, rfl, fun _ _ h => h⟩, ?_⟩
  obtain ⟨tb, fl⟩ := L.fields
  have fl' : Fields E u.heap own tt md tb := by
    refine ⟨hk _ _ L.ownT L.ne fl.tab, fun f hf => ?_, fl.poses⟩
    obtain ⟨sid, y, h1, h2, h3, h4, h5⟩ := fl.methods f hf
    exact ⟨sid, y, h1, h2, h3, h4, hk _ _ h3 h4 h5⟩
  obtain ⟨i1, i2⟩ := fl'.is g.inv
  exact ⟨i1, i2⟩

/-- What `neighbors.map` and `neighbors.filter` have done: machine `vm0` is `vm` with the new table `tt`, its empty table of data `md` and other new objects (`own`); the
calls were made for each entry of the table `pa`; `tt` has been returned, which has the methods of `neighbors`, and `md` has what `pick` says of each call under the key of its
entry, and nothing else.  Results of calls other than tables are as they were returned, and values of `pa` other than tables are as they were. -/
structure NbrResult (E : Env) (F : CFuns) (m : Nat) (K : Obj → Prop) (pick : Entry3 × Nat × Cell → Option (Nat × Nat)) (pa ca : Nat) (t : Table.Tbl (Nat × Nat)) (vm vm0 w : VM)
    (own : Nat → Prop) (tt md : Nat) : Prop where
  prep : Prepared vm vm0
  new : ∀ a, own a → ¬ Live vm.heap a
  ownT : own tt
  is : IsNeighbors E w tt md
  ex : ∃ cs u t', Dict.entries t = cs.map (·.1) ∧ CallsFor E F m own (ca :: tt :: pa :: vm.stack) ca vm0 none cs none u ∧ BackWith vm0 u w tt ∧
    Holds w.heap md (.tab t') ∧ Collected E K pick cs t' ∧
    (∀ x ∈ cs, ∀ v, pick x = some v → v.2 = x.2.1 → (∀ t, x.2.2 ≠ .tab t) → Holds w.heap x.2.1 x.2.2) ∧
    ∀ x ∈ cs, ∀ c, (∀ t, c ≠ .tab t) → Holds vm.heap x.1.2.2 c → Holds w.heap x.1.2.2 c

theorem build_ends {K : Obj → Prop} {pick : Entry3 × Nat × Cell → Option (Nat × Nat)} {body : Nat → Nat → Nat → Entry3 → VM → Res VM} (law : Obj.StrcmpLaw E.sc)
    (skip : ∀ ra e u, u.state ≠ .ready → body pa ca ra e u = .ok u)
    (step : ∀ (vm : VM) (own : Nat → Prop) (ra : Nat) (S : List Nat), own ra → (∀ d, Holds vm.heap ra d → ∃ t, d = .tab t) → (ra ∉ S ∨ ∀ a, own a → a ∈ S) → Scene vm own S pa ca →
      ∀ d e r u v, Dict.entries t = d ++ e :: r → Along E F m own S pa ca t ref l vm none (Built own vm.heap pick K ra) d u → u.state = .ready → body pa ca ra e u = .ok v →
      v.state = .ready → Along E F m own S pa ca t ref l vm none (Built own vm.heap pick K ra) (d ++ [e]) v ∨ Disturbed E F m own S pa ca t vm none)
    (fails : ∀ (vm : VM) (own : Nat → Prop) (ra : Nat) (S : List Nat), Scene vm own S pa ca → ∀ d e r u v, Dict.entries t = d ++ e :: r →
      Along E F m own S pa ca t ref l vm none (Built own vm.heap pick K ra) d u → u.state = .ready → body pa ca ra e u = .ok v → v.state ≠ .ready → Failed E F m own S ca t vm none v)
    {w : VM} (M : Method vm sa [ca]) (hp : PosesAt E vm sa pa) (ht : Holds vm.heap pa (.tab t)) (hc : Holds vm.heap ca (.clo true ref l)) (H : Table.Homog E.sc K)
    (wf : Dict.WF Table.hashN Table.eqd t) (hkeys : Table.Keys K t) (hz : vm.strings.id2str.length + 10 ≤ 65534) (h : nbrBuild E m body vm = .ok w) :
    ∃ vm0 own tt md, Prepared vm vm0 ∧ (∀ a, own a → ¬ Live vm.heap a) ∧
      ((w.state = .ready ∧ NbrResult E F m K pick pa ca t vm vm0 w own tt md) ∨
       (w.state ≠ .ready ∧ ∃ x, Failed E F m own (ca :: tt :: pa :: vm.stack) ca t vm0 none x ∧ ret1 (pushAddr x tt) = .ok w) ∨
       Disturbed E F m own (ca :: tt :: pa :: vm.stack) pa ca t vm0 none) := by
  obtain ⟨vm0, own, tt, md, e0, L⟩ := laid_start (E := E) (m := m) (body := body) law M hp ht hc hz
  refine ⟨vm0, own, tt, md, L.prep, L.out, ?_⟩
  rw [e0] at h
  obtain ⟨x, h1, h2⟩ := Res.bind_eq_ok.mp h
  have sc := L.scene ht hc
  have g0 := L.mid M.ready ht hc
  have st := step vm0 own md (ca :: tt :: pa :: vm.stack) L.ownD (fun d hd => by have := holds_inj hd L.data; exact ⟨_, this⟩) (.inl (L.apart M.inv ht hc)) sc
  have s0 : Along E F m own (ca :: tt :: pa :: vm.stack) pa ca t ref l vm0 none (Built own vm0.heap pick K md) [] vm0 :=
    ⟨[], none, rfl, .start ⟨rfl, fun _ _ _ => Iff.rfl⟩, g0, L.built⟩
  by_cases hx : x.state = .ready
  · rcases dictForeach_visits (t := t) (G := Along E F m own (ca :: tt :: pa :: vm.stack) pa ca t ref l vm0 none (Built own vm0.heap pick K md))
      (B := fun _ => Disturbed E F m own (ca :: tt :: pa :: vm.stack) pa ca t vm0 none) (skip md) (fun d u ⟨_, _, _, _, g, _⟩ => g.tab) st s0 g0.ready h1 hx with
      ⟨cs, acc, e, k, g, tr, b1, b2, b3, b4, b5, b6⟩ | ⟨_, _, _, _, b⟩
    · obtain rfl := calls_none k
      obtain ⟨bk, isn⟩ := L.back M g b6 h2
      refine .inl ⟨(back_state bk).trans hx, L.prep, L.out, L.ownT, isn, cs, x, tr, e, k, bk, bk.heap _ _ b1, built_collected H wf hkeys e b2 b3 b4,
        fun y hy v hv h1 h2 => bk.heap _ _ (b5 y hy v hv h1 h2), fun y hy c hnt hh => bk.heap _ _ ?_⟩
      obtain ⟨c', hc'⟩ := (entry_live g.inv g.tab (e := y.1) (by rw [e]; exact List.mem_map_of_mem hy)).2
      have := g.stays.same _ c hnt (L.prep.heap _ _ hh) c' hc'
      subst this
      exact hc'
    · exact .inr (.inr b)
  · rcases dictForeach_stops (t := t) (G := Along E F m own (ca :: tt :: pa :: vm.stack) pa ca t ref l vm0 none (Built own vm0.heap pick K md))
      (B := fun _ => Disturbed E F m own (ca :: tt :: pa :: vm.stack) pa ca t vm0 none) (skip md) (fun d u ⟨_, _, _, _, g, _⟩ => g.tab) st s0 g0.ready h1 hx with
      ⟨d, e, r, u, hd, g, hu, hb⟩ | ⟨_, _, _, _, b⟩
    · refine .inr (.inl ⟨fun hw => hx (ret1_state h2 hw :), x, fails vm0 own md _ sc d e r u x hd g hu hb hx, h2⟩)
    · exact .inr (.inr b)

/-- **C78** `neighbors.map(f)`: when it ends with the machine ready, `f` has been called once for each entry of the table of data, in the order of the table, with the entry's
key and value, each time on the machine left by the call before; a new table has been returned that has the methods of `neighbors` and whose data is, under the key of each
entry, the result of the call (nil, too); if it ends with the machine not ready, it is as after the first call that failed, but for the return.  Otherwise a call has changed
the table visited. -/
theorem C78_map {K : Obj → Prop} (law : Obj.StrcmpLaw E.sc) (hF : FOk F) (hH : FHome F) (hA : FApart F) (hK : FFirm F) {w : VM} (M : Method vm sa [ca]) (hp : PosesAt E vm sa pa)
    (ht : Holds vm.heap pa (.tab t)) (hc : Holds vm.heap ca (.clo true ref l)) (H : Table.Homog E.sc K) (wf : Dict.WF Table.hashN Table.eqd t) (hkeys : Table.Keys K t)
    (hz : vm.strings.id2str.length + 10 ≤ 65534) (h : nbrMap E F m vm = .ok w) :
    ∃ vm0 own tt md, Prepared vm vm0 ∧ (∀ a, own a → ¬ Live vm.heap a) ∧
      ((w.state = .ready ∧ NbrResult E F m K allKept pa ca t vm vm0 w own tt md) ∨
       (w.state ≠ .ready ∧ ∃ x, Failed E F m own (ca :: tt :: pa :: vm.stack) ca t vm0 none x ∧ ret1 (pushAddr x tt) = .ok w) ∨
       Disturbed E F m own (ca :: tt :: pa :: vm.stack) pa ca t vm0 none) := by
  unfold nbrMap at h
  exact build_ends (pick := allKept) (body := fun _ ca ra => nbrMapEntry E F m ca ra) law (fun _ e u hu => nmap_skip e u hu) (fun _ _ _ _ h1 h2 h3 sc => nmap_step h1 h2 h3 hF hH hA hK H wf hkeys sc)
    (fun _ _ _ _ sc _ _ _ _ _ hd hg hu hb hv => nmap_fails hF hH hA hK sc hd hg hu hb hv) M hp ht hc H wf hkeys hz h

/-- **C78** `neighbors.filter(f)`: the same, but the data of the new table are the entries for which the result of the call is neither nil nor the integer 0. -/
theorem C78_filter {K : Obj → Prop} (law : Obj.StrcmpLaw E.sc) (hF : FOk F) (hH : FHome F) (hA : FApart F) (hK : FFirm F) {w : VM} (M : Method vm sa [ca]) (hp : PosesAt E vm sa pa)
    (ht : Holds vm.heap pa (.tab t)) (hc : Holds vm.heap ca (.clo true ref l)) (H : Table.Homog E.sc K) (wf : Dict.WF Table.hashN Table.eqd t) (hkeys : Table.Keys K t)
    (hz : vm.strings.id2str.length + 10 ≤ 65534) (h : nbrFilter E F m vm = .ok w) :
    ∃ vm0 own tt md, Prepared vm vm0 ∧ (∀ a, own a → ¬ Live vm.heap a) ∧
      ((w.state = .ready ∧ NbrResult E F m K passed pa ca t vm vm0 w own tt md) ∨
       (w.state ≠ .ready ∧ ∃ x, Failed E F m own (ca :: tt :: pa :: vm.stack) ca t vm0 none x ∧ ret1 (pushAddr x tt) = .ok w) ∨
       Disturbed E F m own (ca :: tt :: pa :: vm.stack) pa ca t vm0 none) := by
  unfold nbrFilter at h
  exact build_ends (pick := passed) (body := fun pa ca ra => filterEntry E F m pa ca ra) law (fun _ e u hu => nfilter_skip e u hu) (fun _ _ _ _ h1 h2 h3 sc => filter_step h1 h2 h3 hF hH hA hK H wf hkeys sc)
    (fun _ _ _ _ sc _ _ _ _ _ hd hg hu hb hv => filter_fails hF hH hA hK sc hd hg hu hb hv) M hp ht hc H wf hkeys hz h

/-! ### `kin` and `nonkin` -/

/-- The table `tt` has been returned, which has the methods of `neighbors` and the data `t'`.  It and its table of data, `md`, are new.  But for the return, the machine is
`vm0`: `vm` with more objects and strings. -/
structure Selected (E : Env) (vm vm0 w : VM) (tt md : Nat) (t' : Table.Tbl (Nat × Nat)) : Prop where
  prep : Prepared vm vm0
  back : BackWith vm vm0 w tt
  newT : ¬ Live vm.heap tt
  newD : ¬ Live vm.heap md
  is : IsNeighbors E w tt md
  data : Holds w.heap md (.tab t')

/-- The return of a C function that has only added objects and strings. -/
theorem back_prep {args : List Nat} (M : Method vm sa args) {u : VM} (p : Prepared vm u) (x : Nat) :
    ∃ w, ret1 (pushAddr u x) = .ok w ∧ BackWith vm u w x ∧ w.heap = u.heap ∧ w.strings = u.strings := by
  obtain ⟨f, fs, q, st, r, k, hf, _, hr, hq⟩ := M.ex
  have e := ret1_eq (u := pushAddr u x) (p.frames.trans hf) (p.rest.trans hr) (p.heap _ _ hq) rfl
  exact ⟨_, e, ⟨⟨f, q, st, k, hf, hr, hq, rfl, rfl, rfl⟩, rfl, fun _ _ h => h⟩, rfl, rfl⟩

theorem selected {args : List Nat} (law : Obj.StrcmpLaw E.sc) (M : Method vm sa args) {v u : VM} {tb t' : Table.Tbl (Nat × Nat)} (p : Prepared vm v)
    (mk : NMaking v u tt tb (nbrFields tt)) (ok : VM.CellOk u.heap u.strings (.tab t')) (hc : ∀ b ∈ children (.tab t'), Live v.heap b) (hz : u.strings.id2str.length ≤ 65533) :
    ∃ vm0 w, (nbrSetPoses E tt u.heap.brk { u with heap := (newobj u.heap (.tab t')).1 } >>= fun x => ret1 (pushAddr x tt)) = .ok w ∧ Selected E vm vm0 w tt u.heap.brk t' := by
  obtain ⟨vm0, tb', ky, e5, m5, s5, po5, in5, h5, o5, z5⟩ := mk.poses (E := E) law (nbrFields_names _) ok hc hz
  obtain ⟨w, e6, b6, hh, hs⟩ := back_prep M (p.trans m5.prep) tt
  refine ⟨vm0, w, by rw [e5, Res.ok_bind, e6], p.trans m5.prep, b6, fun ⟨c, h⟩ => mk.fresh c (p.heap _ _ h), fun ⟨c, h⟩ => ?_, ⟨fun f hf => ?_, ?_⟩, by rw [hh]; exact h5⟩
  · exact Nat.lt_irrefl _ (inv_below mk.prep.inv.heap _ _ ((p.trans mk.prep).heap _ _ h))
  · obtain ⟨sid, y, g1, g2, g3⟩ := m5.fields f (List.mem_append_left _ hf)
    exact ⟨tb', sid, y, by rw [hh]; exact m5.tab, by rw [hs]; exact g1, get_mem (key_homog law m5.prep.inv.strings .strs) m5.wf m5.keys g2, by rw [hh]; exact g3⟩
  · obtain ⟨t0, sid, y, q1, q2, q3, q4⟩ := po5
    exact ⟨t0, sid, y, by rw [hh]; exact q1, by rw [hs]; exact q2, q3, q4⟩

/-- A table selected from another one by robot id has only entries of that one. -/
theorem entries_of {t t' : Table.Tbl (Nat × Nat)} (h : Poses t) (h' : Poses t') {p : Nat → Bool}
    (hg : ∀ n : Nat, n < 65536 → ∃ o, Table.get E.sc t (.int n) = .ok o ∧ Table.get E.sc t' (.int n) = .ok (if p n then o else none)) :
    ∀ e ∈ Dict.entries t', e ∈ Dict.entries t := by
  intro e he
  obtain ⟨n, hn, hk⟩ := h'.keys e he
  obtain ⟨k, y⟩ := e
  simp only at hk
  subst hk
  obtain ⟨o, g1, g2⟩ := hg n hn
  rw [get_mem (C13_int_keys E.sc) h'.wf h'.isInt he] at g2
  have ho : o = some y := by
    split at g2
    · exact (Res.ok.inj g2).symm
    · cases g2
  subst ho
  rw [Table.get_spec (C13_int_keys E.sc) h.wf h.isInt ⟨n, rfl⟩] at g1
  obtain ⟨x, hx, rfl⟩ := Option.map_eq_some_iff.mp (Res.ok.inj g1)
  have := List.find?_some hx
  obtain ⟨i, hi⟩ := h.isInt x (List.mem_of_find?_eq_some hx)
  have hm := List.mem_of_find?_eq_some hx
  obtain ⟨a, b⟩ := x
  simp only at hi
  subst hi
  simp only [Table.eqd, decide_eq_true_eq, Obj.int.injEq] at this
  subst this
  exact hm

theorem sub_ok {h : Heap} {sm : Strman.SM Bytes} {t t' : Table.Tbl (Nat × Nat)} (hs : ∀ e ∈ Dict.entries t', e ∈ Dict.entries t) (w : Dict.WF Table.hashN Table.eqd t')
    (ok : VM.CellOk h sm (.tab t)) : VM.CellOk h sm (.tab t') :=
  ⟨Nat.pos_iff_ne_zero.mp w.pos, fun e he => ok.2 e (hs e he)⟩

theorem sub_children {t t' : Table.Tbl (Nat × Nat)} (hs : ∀ e ∈ Dict.entries t', e ∈ Dict.entries t) : ∀ b ∈ children (.tab t'), b ∈ children (.tab t) := by
  intro b hb
  simp only [children, List.mem_flatMap] at hb ⊢
  obtain ⟨e, he, h⟩ := hb
  exact ⟨e, hs e he, h⟩

/-- **C78** `neighbors.kin()`: it succeeds and returns a new table that has the methods of `neighbors` and whose data are the entries of the neighbours that are members of the
swarm on top of the swarm stack, all entries if the stack is empty. -/
theorem C78_kin (law : Obj.StrcmpLaw E.sc) (M : Method vm sa []) (hp : PosesAt E vm sa pa) (ht : Holds vm.heap pa (.tab t)) (P : Poses t) (hsw : ∀ s ∈ vm.swarmstack.head?, s < 65536)
    (hz : vm.strings.id2str.length + 10 ≤ 65534) :
    ∃ vm0 w tt md t', nbrKin E vm = .ok w ∧ Selected E vm vm0 w tt md t' ∧ Poses t' ∧
      ∀ n : Nat, n < 65536 → ∃ o, Table.get E.sc t (.int n) = .ok o ∧
        Table.get E.sc t' (.int n) = .ok (if ∀ s ∈ vm.swarmstack.head?, Swarm.isIn vm.other.swarm.members n s = true then o else none) := by
  obtain ⟨d, sid, y, hsa, _⟩ := id hp
  obtain ⟨u0, u1, e0, e1, p1, s1, z1, _⟩ := poses_get (E := E) M.inv hp ⟨_, ht⟩ (by omega)
  obtain ⟨u2, t2, e2, m2, s2, z2⟩ := table_made (E := E) law p1.inv (by omega)
  have p2 : Prepared vm u2 := p1.trans m2.prep
  obtain ⟨t', f1, f2, f3⟩ := filter_by_id (sc := E.sc) P (fun n => decide (∀ s ∈ vm.swarmstack.head?, Swarm.isIn vm.other.swarm.members n s = true))
    (Hof.kinEntry E.sc vm.other.swarm.members (Hof.topSwarm vm.swarmstack)) (by
      intro t n v hn
      unfold Hof.kinEntry
      cases hv : vm.swarmstack with
      | nil => simp [Hof.topSwarm]
      | cons s r =>
        have hs : s < 65536 := hsw s (by rw [hv]; rfl)
        have hneg : ¬ ((s : Int) < 0) := by omega
        simp only [Hof.topSwarm, if_neg hneg, Hof.ridOf, Res.ok_bind, u16_nat hn, u16_nat hs, hneg, false_or, List.head?_cons, Option.mem_def, Option.some.injEq, forall_eq',
          decide_eq_true_eq]
        rfl)
  have sub := entries_of P f2 f3
  have okt := p2.inv.cells _ _ (p2.heap _ _ ht)
  obtain ⟨vm0, w, e3, S3⟩ := selected law M p1 m2 (sub_ok sub f2.wf okt) (fun b hb => holds_isSome.mp ((p1.inv.cells _ _ (p1.heap _ _ ht)).children b (sub_children sub b hb))) (by omega)
  refine ⟨vm0, w, _, _, t', ?_, S3, f2, fun n hn => ?_⟩
  · unfold nbrKin
    rw [M.entry.lnum, Res.ok_bind, if_neg (by simp)]
    simp only
    rw [method_load M (Prepared.refl M.inv) (k := 0) rfl, Res.ok_bind, (peek_push hsa).1, Res.ok_bind]
    simp only
    rw [e0, Res.ok_bind, e1, Res.ok_bind, peek_at s1, Res.ok_bind, e2, Res.ok_bind]
    simp only
    rw [if_neg (by rw [p2.state, M.ready]; simp), cellAt_of (p2.heap _ _ ht), Res.ok_bind]
    simp only
    rw [show (Dict.entries t).foldlM (Hof.kinEntry E.sc u2.other.swarm.members (Hof.topSwarm vm.swarmstack)) Table.new = .ok t' by rw [p2.other]; exact f1, Res.ok_bind]
    exact e3
  · obtain ⟨o, g1, g2⟩ := f3 n hn
    exact ⟨o, g1, by simpa using g2⟩

/-- **C78** `neighbors.nonkin()` in a swarm: it succeeds and returns a new table that has the methods of `neighbors` and whose data are the entries of the neighbours that are
not members of the swarm on top of the swarm stack. -/
theorem C78_nonkin (law : Obj.StrcmpLaw E.sc) (M : Method vm sa []) (hp : PosesAt E vm sa pa) (ht : Holds vm.heap pa (.tab t)) (P : Poses t) {s : Nat} {r : List Nat}
    (hv : vm.swarmstack = s :: r) (hs : s < 65536) (hz : vm.strings.id2str.length + 10 ≤ 65534) :
    ∃ vm0 w tt md t', nbrNonkin E vm = .ok w ∧ Selected E vm vm0 w tt md t' ∧ Poses t' ∧
      ∀ n : Nat, n < 65536 → ∃ o, Table.get E.sc t (.int n) = .ok o ∧ Table.get E.sc t' (.int n) = .ok (if Swarm.isIn vm.other.swarm.members n s = true then none else o) := by
  obtain ⟨u2, t2, e2, m2, s2, z2⟩ := table_made (E := E) law M.inv (by omega)
  obtain ⟨u3, e3, p3, s3, z3, n3⟩ := nbrPoses_eq M m2.prep hp ⟨_, ht⟩ (by omega)
  have m3 := m2.grow p3 (fun a c h => (n3 a c h).imp id fun h => by rw [h]; simp)
  obtain ⟨t', f1, f2, f3⟩ := filter_by_id (sc := E.sc) P (fun n => !Swarm.isIn vm.other.swarm.members n s)
    (Hof.nonkinEntry E.sc vm.other.swarm.members (Hof.topSwarm vm.swarmstack)) (by
      intro t n v hn
      unfold Hof.nonkinEntry
      simp only [hv, Hof.topSwarm, Hof.ridOf, Res.ok_bind, u16_nat hn, u16_nat hs]
      rfl)
  have sub := entries_of P f2 f3
  have okt := m3.prep.inv.cells _ _ (m3.prep.heap _ _ ht)
  obtain ⟨vm0, w, e4, S4⟩ := selected law M (Prepared.refl M.inv) m3 (sub_ok sub f2.wf okt)
    (fun b hb => holds_isSome.mp ((M.inv.cells _ _ ht).children b (sub_children sub b hb))) (by omega)
  refine ⟨vm0, w, _, _, t', ?_, S4, f2, fun n hn => ?_⟩
  · unfold nbrNonkin
    rw [M.entry.lnum, Res.ok_bind, if_neg (by simp)]
    simp only
    rw [e2, Res.ok_bind]
    simp only
    rw [if_neg (by rw [m2.prep.state, M.ready]; simp), if_neg (by rw [hv]; simp [Hof.topSwarm]), e3, Res.ok_bind, peek_at s3, Res.ok_bind, cellAt_of (m3.prep.heap _ _ ht), Res.ok_bind]
    simp only
    rw [show (Dict.entries t).foldlM (Hof.nonkinEntry E.sc u3.other.swarm.members (Hof.topSwarm vm.swarmstack)) Table.new = .ok t' by rw [m3.prep.other]; exact f1, Res.ok_bind]
    exact e4
  · obtain ⟨o, g1, g2⟩ := f3 n hn
    refine ⟨o, g1, g2.trans ?_⟩
    cases Swarm.isIn vm.other.swarm.members n s <;> rfl

/-- **C78** `neighbors.nonkin()` outside any swarm: it returns a new table with the methods of `neighbors`, but with no field `poses`. -/
theorem C78_nonkin_no_swarm (law : Obj.StrcmpLaw E.sc) (M : Method vm sa []) (hv : vm.swarmstack = []) (hz : vm.strings.id2str.length + 10 ≤ 65534) :
    ∃ vm0 w tt, nbrNonkin E vm = .ok w ∧ Prepared vm vm0 ∧ BackWith vm vm0 w tt ∧ ¬ Live vm.heap tt ∧ (∀ f ∈ nbrFields tt, Field E w tt f.1 f.2) ∧ ∀ md, ¬ PosesAt E w tt md := by
  obtain ⟨u2, t2, e2, m2, s2, z2⟩ := table_made (E := E) law M.inv (by omega)
  obtain ⟨w, e6, b6, hh, hs⟩ := back_prep M m2.prep vm.heap.brk
  refine ⟨u2, w, _, ?_, m2.prep, b6, fun ⟨c, h⟩ => m2.fresh c h, fun f hf => ?_, ?_⟩
  · unfold nbrNonkin
    rw [M.entry.lnum, Res.ok_bind, if_neg (by simp)]
    simp only
    rw [e2, Res.ok_bind]
    simp only
    rw [if_neg (by rw [m2.prep.state, M.ready]; simp), if_pos (by rw [hv]; simp [Hof.topSwarm]), e6]
  · obtain ⟨sid, y, g1, g2, g3⟩ := m2.fields f hf
    exact ⟨t2, sid, y, by rw [hh]; exact m2.tab, by rw [hs]; exact g1, get_mem (key_homog law m2.prep.inv.strings .strs) m2.wf m2.keys g2, by rw [hh]; exact g3⟩
  · rintro md ⟨t0, sid, y, q1, q2, q3, -⟩
    rw [hh] at q1
    cases holds_inj q1 m2.tab
    rw [hs] at q2
    rw [Table.get_spec (key_homog law m2.prep.inv.strings .strs) m2.wf m2.keys (show KeyOk .strs u2.strings (.str sid (ascii "poses")) from ⟨rfl, q2, by decide⟩)] at q3
    obtain ⟨x, hx, _⟩ := Option.map_eq_some_iff.mp (Res.ok.inj q3)
    obtain ⟨f, hf, sid', he⟩ := m2.only x (List.mem_of_find?_eq_some hx)
    have hn := nbrFields_names _ f hf
    have := List.find?_some hx
    simp only [Table.eqd, decide_eq_true_eq] at this
    rw [he] at this
    injection this with _ h
    exact hn h.symm

/-- **C78** The methods of a table like `neighbors` are the functions with those names, of the library with the functions of `neighbors`. -/
theorem C78_methods {other : CFuns} {k : Nat} {w : VM} {tt md : Nat} (h : IsNeighbors E w tt md) :
    MethodIs E (nbrFuns E m other (k + 1)) w tt "get" (nbrGet E) ∧
    MethodIs E (nbrFuns E m other (k + 1)) w tt "filter" (nbrFilter E (nbrFuns E m other k) m) ∧
    MethodIs E (nbrFuns E m other (k + 1)) w tt "kin" (nbrKin E) ∧
    MethodIs E (nbrFuns E m other (k + 1)) w tt "nonkin" (nbrNonkin E) ∧
    MethodIs E (nbrFuns E m other (k + 1)) w tt "foreach" (nbrForeach E (nbrFuns E m other k) m) ∧
    MethodIs E (nbrFuns E m other (k + 1)) w tt "map" (nbrMap E (nbrFuns E m other k) m) ∧
    MethodIs E (nbrFuns E m other (k + 1)) w tt "reduce" (nbrReduce E (nbrFuns E m other k) m) ∧
    MethodIs E (nbrFuns E m other (k + 1)) w tt "count" (nbrCount E) := by
  have g : ∀ x n, (x, n) ∈ nbrMethods.zipIdx → Field E w tt x (.clo false (n : Int) [tt]) := fun x n hx => h.methods _ (List.mem_map.mpr ⟨(x, n), hx, rfl⟩)
  exact ⟨⟨0, g _ _ (by decide), fun _ => rfl⟩, ⟨1, g _ _ (by decide), fun _ => rfl⟩, ⟨2, g _ _ (by decide), fun _ => rfl⟩, ⟨3, g _ _ (by decide), fun _ => rfl⟩,
    ⟨4, g _ _ (by decide), fun _ => rfl⟩, ⟨5, g _ _ (by decide), fun _ => rfl⟩, ⟨6, g _ _ (by decide), fun _ => rfl⟩, ⟨7, g _ _ (by decide), fun _ => rfl⟩⟩

end Buzz.Props
