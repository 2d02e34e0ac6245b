import Verif.SwarmRun

/-
The swarm functions called as C functions of the machine do what `Verif/Swarm.lean` says and nothing else.
-/
namespace Buzz.VM

open Buzz.F32 Buzz.Msg Buzz.Heap Buzz.Props Buzz.HeapWire Buzz.OutMsg

variable {E : Env} {base : Nat}

/-- The function has returned to its caller with a value; it has changed nothing but the swarm part, strings, new objects and the registry of C functions. -/
structure SwAns (vm w : VM) (p : SwarmPart) (R : VM → Nat → Prop) : Prop where
  ready : w.state = .ready
  ex : ∃ f b st a q, vm.frames = f :: w.frames ∧ vm.rest = (b :: st) :: w.rest ∧ Holds vm.heap b (.atom (.int q)) ∧ w.pc = q ∧ w.stack = a :: st ∧ R w a
  gsyms : w.gsyms = vm.gsyms
  code : w.code = vm.code
  nfuns : vm.nfuns ≤ w.nfuns
  other : w.other = { vm.other with swarm := p }
  heap : ∀ a c, Holds vm.heap a c → Holds w.heap a c
  strs : ∀ j s, Strman.get vm.strings j = some s → Strman.get w.strings j = some s
  inv : VInv w

/-- The object is a swarm's table: its number and its methods, each a C function with the table as its object. -/
def IsSwarm (E : Env) (base id : Nat) (vm : VM) (a : Nat) : Prop :=
  HasId E vm a id ∧ ∀ x ∈ swarmMethods.zipIdx, Field E vm a x.1 (.clo false ((base + x.2 : Nat) : Int) [a])

/-- Another swarm part and another number of registered functions. -/
def swV (vm : VM) (p : SwarmPart) (n : Nat) : VM := { setSwarm p vm with nfuns := n }

theorem swV_inv {vm : VM} (i : VInv vm) (p : SwarmPart) (n : Nat) : VInv (swV vm p n) :=
  { i with other := ⟨i.other.vstigs, i.other.listeners, i.other.bcasts, i.other.puts, i.other.queries⟩ }

theorem setSwarm_inv {vm : VM} (i : VInv vm) (p : SwarmPart) : VInv (setSwarm p vm) := swV_inv i p vm.nfuns

theorem swV_entry {vm : VM} {args : List Nat} (e : Entry vm args) (p : SwarmPart) (n : Nat) : Entry (swV vm p n) args := ⟨swV_inv e.inv p n, e.ready, e.ex⟩

theorem swV_work {vm u : VM} (w : Work vm u) (p : SwarmPart) (n : Nat) : Work (swV vm p n) (swV u p n) where
  rest := w.rest
  frames := w.frames
  gsyms := w.gsyms
  code := w.code
  other := by show ({ u.other with swarm := p } : Other) = { vm.other with swarm := p }; rw [w.other]
  nfuns := rfl
  state := w.state
  heap := w.heap
  strs := w.strs
  inv := swV_inv w.inv p n

theorem gives_ans {vm w : VM} {p : SwarmPart} {n : Nat} {c : Cell} (g : Gives (swV vm p n) w c) (hn : vm.nfuns ≤ n) : SwAns vm w p (fun w a => Holds w.heap a c) :=
  ⟨g.ready, g.ex, g.gsyms, g.code, by rw [g.nfuns]; exact hn, g.other, g.heap, g.strs, g.inv⟩

theorem sw_ret0 {vm u : VM} {args : List Nat} (e : Entry vm args) (w : Work vm u) (p : SwarmPart) :
    ∃ x, ret0 (setSwarm p u) = .ok x ∧ SwAns vm x p (fun w a => Holds w.heap a (.atom .nil)) := by
  obtain ⟨x, h1, h2⟩ := ret0_gives (swV_entry e p u.nfuns) (swV_work w p u.nfuns)
  exact ⟨x, h1, gives_ans h2 (Nat.le_of_eq w.nfuns.symm)⟩

/-- Reading the field `id` of a table. -/
theorem sw_id {vm u : VM} {a id : Nat} (w : Work vm u) (hid : HasId E vm a id) (hz : u.strings.id2str.length ≤ 65533) :
    ∃ u1 u', pushName "id" (pushAddr u a) = .ok u1 ∧ tget E u1 = .ok u' ∧ Work vm u' ∧ peek u' 1 = .ok (.int id) ∧
      u'.strings.id2str.length ≤ u.strings.id2str.length + 1 := by
  obtain ⟨t, sid, x, t1, t2, t3, t4, t5⟩ := hid
  have w1 := w.pushAddr ⟨_, t1⟩
  obtain ⟨sm', j, r1, r2, r3, r4, r5, r6⟩ := register_inv w.inv.strings hz (ascii "id") true
  have hj : j = sid := same_id r2 r4 (r6 _ _ (w.strs _ _ t2))
  subst hj
  have iv := w1.inv.setStrings r2 r6
  have w2 : Work vm (VM.push { VM.pushAddr u a with strings := sm' } (.atom (.str j (ascii "id")))) :=
    { w1 with heap := fun a c h => holds_old w1.inv.heap (w1.heap a c h), inv := iv.push r4, strs := fun j x h => r6 j x (w1.strs j x h) }
  have hx := w2.heap _ _ t4
  refine ⟨VM.push { VM.pushAddr u a with strings := sm' } (.atom (.str j (ascii "id"))),
    VM.pushAddr (popN (VM.push { VM.pushAddr u a with strings := sm' } (.atom (.str j (ascii "id")))) 2) x.2, ?_, ?_,
    { w2 with inv := (w2.inv.popN 2).pushAddr ⟨_, hx⟩ }, (peek_top hx _).1, r3⟩
  · unfold pushName pushS
    rw [show (pushAddr u a).strings = u.strings from rfl, r1]
    simp only [Res.ok_bind, Nat.mod_eq_of_lt r5, r4]
    rfl
  · have a1 : At (VM.push { VM.pushAddr u a with strings := sm' } (.atom (.str j (ascii "id")))) 0 (.atom (.str j (ascii "id"))) := ⟨_, rfl, holds_new w.inv.heap _⟩
    have a2 : At (VM.push { VM.pushAddr u a with strings := sm' } (.atom (.str j (ascii "id")))) 1 (.tab t) := ⟨a, rfl, w2.heap _ _ t1⟩
    obtain ⟨b1, _, _, _, _, c1⟩ := At.peekCell a1
    obtain ⟨b2, _, _, _, c2, _⟩ := At.peekCell a2
    have c1 : peek (VM.push { VM.pushAddr u a with strings := sm' } (.atom (.str j (ascii "id")))) 1 = .ok (.str j (ascii "id")) := c1
    have c2 : peekCell (VM.push { VM.pushAddr u a with strings := sm' } (.atom (.str j (ascii "id")))) 2 = .ok (.tab t) := c2
    unfold tget need
    rw [if_neg (by show ¬ (((_ :: a :: u.stack).length : Nat) : Int) - 2 < 0; simp only [List.length_cons]; omega), c2, Res.ok_bind]
    simp only [c1, Res.ok_bind, isKey, t3, if_true]
    rfl

theorem id_word {id : Nat} (h : id < 65536) : ((id : Int) % 65536).toNat = id := by omega

theorem sw_stigId {vm : VM} {obj id : Nat} {args : List Nat} (e : Method vm obj args) (hid : HasId E vm obj id) (hz : vm.strings.id2str.length ≤ 65533) :
    ∃ u, stigId E vm = .ok (u, id) ∧ Work vm u ∧ u.strings.id2str.length ≤ vm.strings.id2str.length + 1 := by
  obtain ⟨u1, u, h1, h2, h3, h4, h5⟩ := sw_id (Work.refl e.inv) hid hz
  obtain ⟨f, fs, p, st, r, q, hf, hs, hr, hq⟩ := e.ex
  refine ⟨u, ?_, h3, h5⟩
  obtain ⟨_, _, _, _, _, _, _, t5⟩ := hid
  unfold stigId
  rw [lload_at hf (k := 0) (a := obj) (by rw [hs]; rfl), Res.ok_bind, show ({ vm with stack := obj :: vm.stack } : VM) = pushAddr vm obj from rfl, h1, Res.ok_bind, h2, Res.ok_bind, h4,
    Res.ok_bind]
  simp only [Res.pure_eq, id_word t5]

theorem swV_pushT (u : VM) (p : SwarmPart) : ({ setSwarm p u with nfuns := max (setSwarm p u).nfuns (base + 6) } : VM) = swV u p (max u.nfuns (base + 6)) := rfl

/-- `make_table` followed by the return. -/
theorem sw_table (law : Obj.StrcmpLaw E.sc) (hb : base + 6 < 2147483648) {vm u : VM} {args : List Nat} (e : Entry vm args) (w : Work vm u) (p : SwarmPart) {id : Nat} (hid : id < 65536)
    (hz : u.strings.id2str.length + 7 ≤ 65534) : ∃ x y, swTable E base id (setSwarm p u) = .ok x ∧ ret1 x = .ok y ∧ SwAns vm y p (IsSwarm E base id) ∧
      y.strings.id2str.length ≤ u.strings.id2str.length + 7 := by
  have wv := swV_work w p (max u.nfuns (base + 6))
  have ev := swV_entry e p (max u.nfuns (base + 6))
  have m0 : Making (swV vm p (max u.nfuns (base + 6))) (pushT (swV u p (max u.nfuns (base + 6)))) (newobj u.heap (.tab Table.new)).2 u.stack Table.new [] := by
    have tabOk : CellOk u.heap u.strings (.tab Table.new) := by
      refine ⟨by decide, ?_⟩
      rw [show Dict.entries (Table.new : Table.Tbl (Nat × Nat)) = [] from Dict.entries_new _]
      intro e he
      cases he
    refine ⟨(wv.push tabOk).1, fun c hc => new_fresh w.inv.heap _ c (w.heap _ _ hc), rfl, holds_new w.inv.heap _, Dict.new_wf (by decide), ?_, by simp⟩
    intro x hx
    rw [show Dict.entries (Table.new : Table.Tbl (Nat × Nat)) = [] from Dict.entries_new _] at hx
    cases hx
  have hl : swarmMethods.zipIdx.length = 6 := rfl
  obtain ⟨u1, t1, e1, m1, z1⟩ := methods_make (E := E) law hb swarmMethods.zipIdx m0 (by decide) (by simp) (by decide) (show u.strings.id2str.length + _ ≤ 65534 by omega)
  have z1 : u1.strings.id2str.length ≤ u.strings.id2str.length + swarmMethods.zipIdx.length := z1
  obtain ⟨u2, t2, e2, m2, z2⟩ := m1.field law (E := E) (x := "id") (by decide) (by
      intro f hf
      rw [List.nil_append] at hf
      obtain ⟨x, hx, rfl⟩ := List.mem_map.mp hf
      clear hf
      show ascii x.1 ≠ ascii "id"
      revert x
      decide) (by omega)
    (p := fun vm => pushInt vm id) (vc := .atom (.int id)) (by simp) (fun u1 i1 => pushInt_field (by unfold I32; omega) u1 i1)
  obtain ⟨y, g1, g2⟩ := ret1_gives ev m2.work ⟨_, by rw [m2.stack]; rfl, m2.tab⟩
  obtain ⟨f, fs, self, b, st, r, q, hf, hs, hr, hq⟩ := e.ex
  have hu := ret1_eq (m2.work.frames.trans hf) (m2.work.rest.trans hr) (m2.work.heap _ _ hq) m2.stack
  have hw : y = _ := Res.ok.inj (g1.symm.trans hu)
  have fld : ∀ z ∈ swarmMethods.zipIdx, Field E y (newobj u.heap (.tab Table.new)).2 z.1 (.clo false ((base + z.2 : Nat) : Int) [(newobj u.heap (.tab Table.new)).2]) := by
    intro z hz
    obtain ⟨sid, y', y1, y2, y3, _⟩ := m2.fields (z.1, .clo false ((base + z.2 : Nat) : Int) [(newobj u.heap (.tab Table.new)).2])
      (List.mem_append_left _ (List.mem_map.mpr ⟨z, hz, rfl⟩))
    rw [hw]
    exact ⟨t2, sid, y', m2.tab, y1, get_mem (key_homog law m2.work.inv.strings .strs) m2.wf m2.keys y2, y3⟩
  have hasId : HasId E y (newobj u.heap (.tab Table.new)).2 id := by
    obtain ⟨sid, y', y1, y2, y3, _⟩ := m2.fields ("id", .atom (.int id)) (List.mem_append_right _ (List.mem_singleton.mpr rfl))
    rw [hw]
    exact ⟨t2, sid, y', m2.tab, y1, get_mem (key_homog law m2.work.inv.strings .strs) m2.wf m2.keys y2, y3, hid⟩
  refine ⟨u2, y, ?_, g1, ?_, by rw [hw]; show u2.strings.id2str.length ≤ _; omega⟩
  · unfold swTable
    rw [swV_pushT, e1, Res.ok_bind, e2]
  · refine ⟨g2.ready, ⟨f, b, st, _, q, ?_, ?_, hq, ?_, ?_, hasId, fld⟩, g2.gsyms, g2.code, by rw [g2.nfuns]; exact Nat.le_trans (Nat.le_of_eq w.nfuns.symm) (Nat.le_max_left ..), g2.other, g2.heap, g2.strs, g2.inv⟩
    · rw [hw]; exact hf
    · rw [hw]; exact hr
    · rw [hw]; rfl
    · rw [hw]; rfl

/-! ### The functions -/

theorem u16_u16 (v : Int) : Swarm.u16 (Swarm.u16 v : Int) = Swarm.u16 v := by unfold Swarm.u16; omega

theorem u16_lt (v : Int) : Swarm.u16 v < 65536 := by unfold Swarm.u16; omega

theorem create_sw (law : Obj.StrcmpLaw E.sc) (hb : base + 6 < 2147483648) {vm : VM} {obj a : Nat} {i : Int} (e : Method vm obj [a]) (ha : Holds vm.heap a (.atom (.int i)))
    (hz : vm.strings.id2str.length + 7 ≤ 65534) {s : Swarm.St Unit Unit Unit} {v : Option Int} (hs : swStep vm.other.swarm.st (.create (Swarm.u16 i)) = .ok (.ret s v)) :
    ∃ w, swCreate E base vm = .ok w ∧ SwAns vm w (vm.other.swarm.put s) (IsSwarm E base (Swarm.u16 i)) ∧ w.strings.id2str.length ≤ vm.strings.id2str.length + 7 := by
  obtain ⟨l1, w1, p1⟩ := e.entry.load (k := 0) (Work.refl e.inv) rfl ha
  obtain ⟨x, y, h1, h2, h3, h4⟩ := sw_table (E := E) (base := base) law hb e.entry w1 (vm.other.swarm.put s) (u16_lt i) hz
  refine ⟨y, ?_, h3, h4⟩
  have hc : (Swarm.create vm.other.swarm.st i).1 = s := by
    simp only [swStep, Swarm.create, u16_u16, Res.ok.injEq, Swarm.Out.ret.injEq] at hs
    simp only [Swarm.create]
    split at hs <;> exact hs.1
  unfold swCreate
  rw [e.entry.lnum, Res.ok_bind, if_neg (by simp), l1, Res.ok_bind, p1, Res.ok_bind]
  simp only [objOf]
  rw [show (pushAddr vm a).other = vm.other from rfl, hc, show swPut s (pushAddr vm a) = setSwarm (vm.other.swarm.put s) (pushAddr vm a) from rfl, h1, Res.ok_bind, h2]

theorem swPut_work {vm u : VM} (w : Work vm u) (s : Swarm.St Unit Unit Unit) : swPut s u = setSwarm (vm.other.swarm.put s) u := by unfold swPut; rw [w.other]

theorem join_sw {vm : VM} {obj id : Nat} (e : Method vm obj []) (hid : HasId E vm obj id) (hz : vm.strings.id2str.length ≤ 65533) :
    (∀ s v, swStep vm.other.swarm.st (.join id) = .ok (.ret s v) → ∃ w, swJoin E vm = .ok w ∧ SwAns vm w (vm.other.swarm.put s) (fun w a => Holds w.heap a (.atom .nil))) ∧
    (swStep vm.other.swarm.st (.join id) = .ok .error → ∃ u, swJoin E vm = .ok (setErr u .swarm) ∧ Work vm u) := by
  obtain ⟨u, h1, w, _⟩ := sw_stigId e hid hz
  unfold swJoin swThen
  rw [e.entry.lnum, Res.ok_bind, if_neg (by simp), h1, Res.ok_bind, show u.other.swarm = vm.other.swarm by rw [w.other]]
  refine ⟨fun s v h => ?_, fun h => ⟨u, ?_, w⟩⟩
  · obtain ⟨x, g1, g2⟩ := sw_ret0 e.entry w (vm.other.swarm.put s)
    refine ⟨x, ?_, g2⟩
    rw [show Swarm.join vm.other.swarm.st id = _ from h, Res.ok_bind]
    simp only
    rw [swPut_work w, g1]
  · rw [show Swarm.join vm.other.swarm.st id = _ from h]
    rfl

theorem leave_sw {vm : VM} {obj id : Nat} (e : Method vm obj []) (hid : HasId E vm obj id) (hz : vm.strings.id2str.length ≤ 65533) :
    (∀ s v, swStep vm.other.swarm.st (.leave id) = .ok (.ret s v) → ∃ w, swLeave E vm = .ok w ∧ SwAns vm w (vm.other.swarm.put s) (fun w a => Holds w.heap a (.atom .nil))) ∧
    (swStep vm.other.swarm.st (.leave id) = .ok .error → ∃ u, swLeave E vm = .ok (setErr u .swarm) ∧ Work vm u) := by
  obtain ⟨u, h1, w, _⟩ := sw_stigId e hid hz
  unfold swLeave swThen
  rw [e.entry.lnum, Res.ok_bind, if_neg (by simp), h1, Res.ok_bind, show u.other.swarm = vm.other.swarm by rw [w.other]]
  refine ⟨fun s v h => ?_, fun h => ⟨u, ?_, w⟩⟩
  · obtain ⟨x, g1, g2⟩ := sw_ret0 e.entry w (vm.other.swarm.put s)
    refine ⟨x, ?_, g2⟩
    rw [show Swarm.leave vm.other.swarm.st id = _ from h, Res.ok_bind]
    simp only
    rw [swPut_work w, g1]
  · rw [show Swarm.leave vm.other.swarm.st id = _ from h]
    rfl

theorem in_sw {vm : VM} {obj id : Nat} (e : Method vm obj []) (hid : HasId E vm obj id) (hz : vm.strings.id2str.length ≤ 65533) :
    (∀ x, FMap.get vm.other.swarm.swarms id = some x → x < 256 → ∃ w, swIn E vm = .ok w ∧ SwAns vm w vm.other.swarm (fun w a => Holds w.heap a (.atom (.int (x : Nat))))) ∧
    (FMap.get vm.other.swarm.swarms id = none → ∃ u, swIn E vm = .ok (setErr u .swarm) ∧ Work vm u) := by
  obtain ⟨u, h1, w, _⟩ := sw_stigId e hid hz
  unfold swIn
  rw [e.entry.lnum, Res.ok_bind, if_neg (by simp), h1, Res.ok_bind, show u.other.swarm = vm.other.swarm by rw [w.other]]
  refine ⟨fun x h hx => ?_, fun h => ⟨u, ?_, w⟩⟩
  · simp only [h]
    have wi := w.push (c := .atom (.int (x : Nat))) (show I32 (x : Nat) by unfold I32; omega)
    obtain ⟨y, g1, g2⟩ := ret1_gives e.entry wi.1 wi.2
    exact ⟨y, g1, ⟨g2.ready, g2.ex, g2.gsyms, g2.code, Nat.le_of_eq g2.nfuns.symm, g2.other, g2.heap, g2.strs, g2.inv⟩⟩
  · simp only [h]
    rfl

theorem select_sw {vm : VM} {obj a id : Nat} {c : Int} (e : Method vm obj [a]) (hid : HasId E vm obj id) (ha : Holds vm.heap a (.atom (.int c))) (hz : vm.strings.id2str.length ≤ 65533) :
    (∀ s v, swStep vm.other.swarm.st (.select id c) = .ok (.ret s v) → ∃ w, swSelect E vm = .ok w ∧ SwAns vm w (vm.other.swarm.put s) (fun w a => Holds w.heap a (.atom .nil))) ∧
    (swStep vm.other.swarm.st (.select id c) = .ok .error → ∃ u, swSelect E vm = .ok (setErr u .swarm) ∧ Work vm u) := by
  obtain ⟨u, h1, w, _⟩ := sw_stigId e hid hz
  obtain ⟨l1, w1, p1⟩ := e.entry.load (k := 0) w rfl ha
  unfold swSelect swThen
  rw [e.entry.lnum, Res.ok_bind, if_neg (by simp), h1, Res.ok_bind]
  simp only
  rw [l1, Res.ok_bind, p1, Res.ok_bind]
  simp only [objOf]
  rw [show (pushAddr u a).other.swarm = vm.other.swarm by rw [w1.other]]
  refine ⟨fun s v h => ?_, fun h => ⟨_, ?_, w1⟩⟩
  · obtain ⟨x, g1, g2⟩ := sw_ret0 e.entry w1 (vm.other.swarm.put s)
    refine ⟨x, ?_, g2⟩
    rw [show Swarm.select vm.other.swarm.st id c = _ from h, Res.ok_bind]
    simp only
    rw [swPut_work w1, g1]
  · rw [show Swarm.select vm.other.swarm.st id c = _ from h]
    rfl

theorem others_u16 (s : Swarm.St Unit Unit Unit) (id : Nat) (i : Int) : Swarm.others s id (Swarm.u16 i : Int) = Swarm.others s id i := by
  unfold Swarm.others
  rw [u16_u16]

theorem others_sw (law : Obj.StrcmpLaw E.sc) (hb : base + 6 < 2147483648) {vm : VM} {obj a id : Nat} {i : Int} (e : Method vm obj [a]) (hid : HasId E vm obj id)
    (ha : Holds vm.heap a (.atom (.int i))) (hz : vm.strings.id2str.length + 8 ≤ 65534) :
    (∀ s v, swStep vm.other.swarm.st (.others id (Swarm.u16 i)) = .ok (.ret s v) →
      ∃ w, swOthers E base vm = .ok w ∧ SwAns vm w (vm.other.swarm.put s) (IsSwarm E base (Swarm.u16 i))) ∧
    (swStep vm.other.swarm.st (.others id (Swarm.u16 i)) = .ok .error → ∃ u, swOthers E base vm = .ok (setErr u .swarm) ∧ Work vm u) := by
  obtain ⟨u, h1, w, z⟩ := sw_stigId e hid (by omega)
  obtain ⟨l1, w1, p1⟩ := e.entry.load (k := 0) w rfl ha
  unfold swOthers swThen
  rw [e.entry.lnum, Res.ok_bind, if_neg (by simp), h1, Res.ok_bind]
  simp only
  rw [show u.other.swarm = vm.other.swarm by rw [w.other]]
  refine ⟨fun s v h => ?_, fun h => ⟨u, ?_, w⟩⟩
  · have h : Swarm.others vm.other.swarm.st id i = .ok (.ret s v) := by rw [← others_u16]; exact h
    have hk : (FMap.get vm.other.swarm.swarms id).isNone = false := by
      unfold Swarm.others at h
      split at h
      · simp at h
      · rename_i hx; rw [show FMap.get vm.other.swarm.swarms id = _ from hx]; rfl
    obtain ⟨x, y, g1, g2, g3, _⟩ := sw_table (E := E) (base := base) law hb e.entry w1 (vm.other.swarm.put s) (u16_lt i) (show u.strings.id2str.length + 7 ≤ 65534 by omega)
    refine ⟨y, ?_, g3⟩
    rw [if_neg (by rw [hk]; simp), l1, Res.ok_bind, p1, Res.ok_bind]
    simp only [objOf]
    rw [show (pushAddr u a).other.swarm = vm.other.swarm by rw [w1.other], h, Res.ok_bind]
    simp only
    rw [swPut_work w1, g1, Res.ok_bind, g2]
  · have h : Swarm.others vm.other.swarm.st id i = .ok .error := by rw [← others_u16]; exact h
    have hk : (FMap.get vm.other.swarm.swarms id).isNone = true := by
      unfold Swarm.others at h
      split at h
      · rename_i hx; rw [show FMap.get vm.other.swarm.swarms id = _ from hx]; rfl
      · obtain ⟨s, _, h2⟩ := Res.bind_eq_ok.mp h
        simp at h2
    rw [if_pos hk]
    rfl

theorem check_sw {vm u : VM} {a id : Nat} (w : Work vm u) (hid : HasId E vm a id) (hz : u.strings.id2str.length ≤ 65533) :
    ∃ u', swCheck E (pushAddr u a) = .ok (u', some (Swarm.check vm.other.swarm.st id)) ∧ Work vm u' ∧ u'.strings.id2str.length ≤ u.strings.id2str.length + 1 := by
  obtain ⟨u1, u', h1, h2, h3, h4, h5⟩ := sw_id w hid hz
  refine ⟨u', ?_, h3, h5⟩
  obtain ⟨t, sid, x, t1, t2, t3, t4, t5⟩ := hid
  have hc : peekCell (pushAddr u a) 1 = .ok (.tab t) := (peek_top (w.heap _ _ t1) _).2.1
  unfold swCheck
  rw [hc, Res.ok_bind]
  simp only
  rw [h1, Res.ok_bind, h2, Res.ok_bind, h4, Res.ok_bind]
  simp only [Res.pure_eq]
  rw [show u'.other.swarm = vm.other.swarm by rw [h3.other], show Swarm.u16 (id : Int) = id from id_word t5]

theorem setOp_sw (law : Obj.StrcmpLaw E.sc) (hb : base + 6 < 2147483648) {vm : VM} {obj ia a b id1 id2 : Nat} {i : Int} (op : Swarm.SetOp) (e : Method vm obj [ia, a, b])
    (hi : Holds vm.heap ia (.atom (.int i))) (h1 : HasId E vm a id1) (h2 : HasId E vm b id2) (hz : vm.strings.id2str.length + 9 ≤ 65534) {s : Swarm.St Unit Unit Unit} {v : Option Int}
    (h : swStep vm.other.swarm.st (.setOp op (Swarm.u16 i) id1 id2) = .ok (.ret s v)) :
    ∃ w, swSetOp E base op vm = .ok w ∧ SwAns vm w (vm.other.swarm.put s) (IsSwarm E base (Swarm.u16 i)) := by
  obtain ⟨ta, _, _, ha, _⟩ := id h1
  obtain ⟨tb, _, _, hb', _⟩ := id h2
  obtain ⟨l1, w1, p1⟩ := e.entry.load (k := 0) (Work.refl e.inv) rfl hi
  obtain ⟨l2, w2, p2⟩ := e.entry.load (k := 1) w1 rfl ha
  obtain ⟨u1, c1, v1, z1⟩ := check_sw (E := E) w1 h1 (show vm.strings.id2str.length ≤ 65533 by omega)
  have z1 : u1.strings.id2str.length ≤ vm.strings.id2str.length + 1 := z1
  obtain ⟨l3, w3, p3⟩ := e.entry.load (k := 2) v1 rfl hb'
  obtain ⟨u2, c2, v2, z2⟩ := check_sw (E := E) v1 h2 (by omega)
  obtain ⟨x, y, g1, g2, g3, _⟩ := sw_table (E := E) (base := base) law hb e.entry v2 (vm.other.swarm.put s) (u16_lt i) (show u2.strings.id2str.length + 7 ≤ 65534 by omega)
  refine ⟨y, ?_, g3⟩
  unfold swSetOp
  rw [e.entry.lnum, Res.ok_bind, if_neg (by simp), l1, Res.ok_bind, p1, Res.ok_bind]
  simp only [objOf]
  rw [l2, Res.ok_bind, c1, Res.ok_bind]
  simp only
  rw [l3, Res.ok_bind, c2, Res.ok_bind]
  simp only
  simp only [swStep, Swarm.setOp, u16_u16] at h
  obtain ⟨s', k1, k2⟩ := Res.bind_eq_ok.mp h
  simp only [Res.pure_eq, Res.ok.injEq, Swarm.Out.ret.injEq] at k2
  obtain ⟨rfl, _⟩ := k2
  rw [show u2.other.swarm = vm.other.swarm by rw [v2.other], k1, Res.ok_bind, swPut_work v2, g1, Res.ok_bind, g2]

end Buzz.VM
