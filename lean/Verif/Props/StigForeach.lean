import Verif.StigEach
import Verif.Props.NbrMachine

/-
`foreach` of a virtual stigmergy on the machine (C79).
-/
namespace Buzz.Props

open Buzz.VM Buzz.F32 Buzz.Msg Buzz.Heap

/-! ### Specification -/

/-- One call of the script's function `ca` for the entry `e` of a stigmergy: on machine `u` it is given key, value and robot of the entry, and ends on machine `v`
with the result `r`, an object of content `c`, on top of the stack there was.  Keys and values other than tables are what they were in the heap `h`. -/
structure StigCallFor (E : Env) (F : CFuns) (m : Nat) (h : Heap) (ca : Nat) (e : StigEntry) (u v : VM) (r : Nat) (c : Cell) : Prop where
  run : closureCall E F m 3 (pushInt { u with stack := e.2.data :: e.2.key :: ca :: u.stack } e.2.robot) = .ok v
  ready : v.state = .ready
  stack : v.stack = r :: u.stack
  rest : v.rest = u.rest
  frames : v.frames = u.frames
  pc : v.pc = u.pc
  code : v.code = u.code
  value : Holds v.heap r c
  args : ∀ a d, a = e.2.key ∨ a = e.2.data → (∀ t, d ≠ .tab t) → Holds h a d → Holds u.heap a d

/-- A sequence of calls of the script's function `ca` from machine `vm`, each on the machine left by the one before; the results stay on the stack. -/
inductive StigCalls (E : Env) (F : CFuns) (m : Nat) (ca : Nat) (vm : VM) : List (StigEntry × Nat × Cell) → VM → Prop where
  | start : StigCalls E F m ca vm [] vm
  | call {cs : List (StigEntry × Nat × Cell)} {e : StigEntry} {u v : VM} {r : Nat} {c : Cell} : StigCalls E F m ca vm cs u →
      StigCallFor E F m vm.heap ca e u v r c → StigCalls E F m ca vm (cs ++ [(e, r, c)]) v

/-- The stigmergy `id` has this content. -/
def StigHas (vm : VM) (id : Nat) (t : Table.Tbl VElem) : Prop := ∃ st, FMap.get vm.other.vstigs id = some st ∧ st.data = t

/-- A call has changed the stigmergy that is being visited. -/
def StigDisturbed (E : Env) (F : CFuns) (m : Nat) (id ca : Nat) (t : Table.Tbl VElem) (vm : VM) : Prop :=
  ∃ cs e rest u v r c, Dict.entries t = cs.map (·.1) ++ e :: rest ∧ StigCalls E F m ca vm cs u ∧ StigCallFor E F m vm.heap ca e u v r c ∧ ¬ StigHas v id t

/-- The call for one of the entries, before which everything went as described, has ended on machine `x`, which is not ready. -/
def StigFailed (E : Env) (F : CFuns) (m : Nat) (ca : Nat) (t : Table.Tbl VElem) (vm x : VM) : Prop :=
  ∃ cs e rest u, Dict.entries t = cs.map (·.1) ++ e :: rest ∧ StigCalls E F m ca vm cs u ∧
    closureCall E F m 3 (pushInt { u with stack := e.2.data :: e.2.key :: ca :: u.stack } e.2.robot) = .ok x ∧ x.state ≠ .ready

variable {E : Env} {F : CFuns} {m : Nat} {obj id ca : Nat} {t : Table.Tbl VElem} {ref : Int} {l : List Nat} {vm : VM}

theorem stigAt_iff {u : VM} : stigAt u id = .ok t ↔ StigHas u id t := by
  unfold stigAt StigHas
  cases FMap.get u.other.vstigs id with
  | none => simp
  | some st => simp [Res.pure_eq]

/-! ### The beginning -/

/-- The field `id` of a stigmergy on top of the stack. -/
theorem stigId_prep {args : List Nat} (M : Method vm obj args) (hid : HasId E vm obj id) (hz : vm.strings.id2str.length ≤ 65533) :
    ∃ u, stigId E vm = .ok (u, id) ∧ Prepared vm u := by
  obtain ⟨t, sid, y, t1, t2, t3, t4, t5⟩ := hid
  have i := M.inv
  have i1 := i.pushAddr (a := obj) ⟨_, t1⟩
  obtain ⟨sm, j, e1, p1, g1, z1, is⟩ := name_prep i1 "id" hz
  have hj : j = sid := same_id is g1 (p1.strs _ _ t2)
  subst hj
  generalize hu : push { pushAddr vm obj with strings := sm } (.atom (.str j (ascii "id"))) = u1 at *
  have st1 : u1.stack = vm.heap.brk :: obj :: vm.stack := by rw [← hu]; rfl
  have old1 : ∀ a c, Holds vm.heap a c → Holds u1.heap a c := p1.heap
  have a1 : At u1 0 (.atom (.str j (ascii "id"))) := ⟨_, by rw [st1]; rfl, by rw [← hu]; exact holds_new i.heap _⟩
  have a2 : At u1 1 (.tab t) := ⟨obj, by rw [st1]; rfl, old1 _ _ t1⟩
  obtain ⟨b1, _, _, _, _, c1⟩ := At.peekCell a1
  obtain ⟨b2, _, _, _, c2, _⟩ := At.peekCell a2
  have c1 : peek u1 1 = .ok (.str j (ascii "id")) := c1
  have c2 : peekCell u1 2 = .ok (.tab t) := c2
  have hpop : popN u1 2 = { u1 with stack := vm.stack } := by unfold popN; rw [st1]; rfl
  have hs : ∀ a ∈ y.2 :: vm.stack, Live u1.heap a := by
    intro a ha
    rcases List.mem_cons.mp ha with rfl | ha
    · exact ⟨_, old1 _ _ t4⟩
    · obtain ⟨d, hd⟩ := i.stack a ha
      exact ⟨d, old1 _ _ hd⟩
  have p0 : Prepared vm (pushAddr vm obj) := ⟨rfl, .inl rfl, fun _ _ h => h, fun _ _ h => h, i1⟩
  refine ⟨{ u1 with stack := y.2 :: vm.stack }, ?_, (p0.trans p1).restack hs⟩
  have tg : tget E u1 = .ok { u1 with stack := y.2 :: vm.stack } := by
    unfold tget need
    rw [if_neg (by rw [st1]; simp only [List.length_cons]; omega), c2, Res.ok_bind]
    simp only [c1, Res.ok_bind, isKey, t3, if_true, hpop]
    rfl
  unfold stigId
  rw [method_load M (Prepared.refl i) (k := 0) rfl, Res.ok_bind, e1, Res.ok_bind, tg, Res.ok_bind, (peek_top (vm := u1) (old1 _ _ t4) vm.stack).1, Res.ok_bind]
  have hw : ((id : Int) % 65536).toNat = id := by omega
  simp only [objOf, Res.pure_eq, hw]

theorem sforeach_eq (M : Method vm obj [ca]) (hid : HasId E vm obj id) (ht : StigHas vm id t) (hc : Holds vm.heap ca (.clo true ref l)) (hz : vm.strings.id2str.length ≤ 65533) :
    ∃ vm0, stigForeach E F m vm = stigDictForeach (stigEach E F m ca) id m vm0 >>= ret0 ∧ Prepared vm vm0 ∧ ∃ s, vm0.stack = ca :: s := by
  obtain ⟨u, e, p⟩ := stigId_prep (E := E) M hid hz
  obtain ⟨st, hst, _⟩ := ht
  refine ⟨pushAddr u ca, ?_, p.push ⟨_, p.heap _ _ hc⟩, u.stack, rfl⟩
  unfold stigForeach
  rw [M.entry.lnum, Res.ok_bind, if_neg (by simp), e, Res.ok_bind]
  simp only [p.other, hst]
  rw [method_load M p (k := 1) (a := ca) rfl, Res.ok_bind, (peek_push (p.heap _ _ hc)).1, Res.ok_bind]
  simp only
  rw [(peek_push (p.heap _ _ hc)).2, Res.ok_bind]

/-! ### One call -/

/-- What holds between the calls. -/
structure StigMid (vm : VM) (id ca : Nat) (t : Table.Tbl VElem) (ref : Int) (l : List Nat) (u : VM) : Prop where
  inv : VInv u
  ready : u.state = .ready
  data : StigHas u id t
  clo : Holds u.heap ca (.clo true ref l)
  stays : Stays vm.heap u.heap
  rest : u.rest = vm.rest
  frames : u.frames = vm.frames
  pc : u.pc = vm.pc
  code : u.code = vm.code
  caS : ca ∈ u.stack

theorem sone_call (hF : FOk F) (hH : FHome F) (hA : FApart F) (hK : FFirm F) (i0 : VInv vm) {u v : VM} (g : StigMid vm id ca t ref l u) {e : StigEntry} (he : e ∈ Dict.entries t)
    (hr : e.2.robot < 65536) (h : closureCall E F m 3 (pushInt { u with stack := e.2.data :: e.2.key :: ca :: u.stack } e.2.robot) = .ok v) (hv : v.state = .ready) :
    ∃ r c, StigCallFor E F m vm.heap ca e u v r c ∧ VInv v ∧ Holds v.heap ca (.clo true ref l) ∧ Stays vm.heap v.heap := by
  obtain ⟨st, hst, rfl⟩ := g.data
  obtain ⟨l1, l2⟩ := (g.inv.other.vstigs _ (FMap.mem_of_get hst)).2.2 e he
  have i1 : VInv { u with stack := e.2.data :: e.2.key :: ca :: u.stack } := by
    refine { g.inv with stack := fun a ha => ?_ }
    simp only [List.mem_cons] at ha
    rcases ha with rfl | rfl | rfl | ha
    · exact l2
    · exact l1
    · exact ⟨_, g.clo⟩
    · exact g.inv.stack a ha
  have i2 : VInv (pushInt { u with stack := e.2.data :: e.2.key :: ca :: u.stack } e.2.robot) := i1.push (c := .atom (.int e.2.robot)) (by show I32 _; unfold I32; omega)
  have old : ∀ a c, Holds u.heap a c → Holds (pushInt { u with stack := e.2.data :: e.2.key :: ca :: u.stack } e.2.robot).heap a c := fun a c hh => holds_old g.inv.heap hh
  have st1 : Stays u.heap (pushInt { u with stack := e.2.data :: e.2.key :: ca :: u.stack } e.2.robot).heap := by
    have f1 : Firm u { u with heap := (newobj u.heap (.atom (.int e.2.robot))).1 } := .new
    exact (f1 (inv_below g.inv.heap)).2.stays
  have hat : At (pushInt { u with stack := e.2.data :: e.2.key :: ca :: u.stack } e.2.robot) 3 (.clo true ref l) := ⟨ca, rfl, old _ _ g.clo⟩
  obtain ⟨res, fr, k⟩ := callback (P := none') hF hH hA hK i2 g.ready (by omega) hat h hv
    ⟨fun _ _ _ _ h => h, fun _ _ h => h, fun _ _ h => h, fun _ _ _ _ _ _ h => h, fun _ h => h.elim⟩ (fun _ _ h => h) (fun _ h => h.elim)
  obtain ⟨r, hr'⟩ := res.stack
  have hr' : v.stack = r :: u.stack := hr'
  obtain ⟨c, hc⟩ := res.inv.stack r (by rw [hr']; simp)
  have sv : Stays vm.heap v.heap := (g.stays.trans (inv_below i0.heap) st1).trans (inv_below i0.heap) k.stays
  refine ⟨r, c, ⟨h, hv, hr', res.rest, res.frames, res.pc, res.code, hc, ?_⟩, res.inv, k.held _ _ (by simp) (.inl g.caS) (old _ _ g.clo), sv⟩
  intro a d ha hd hh
  obtain ⟨d', h'⟩ : Live u.heap a := by rcases ha with rfl | rfl; exacts [l1, l2]
  have := g.stays.same a d hd hh d' h'
  subst this
  exact h'

theorem sback_ret0 {args : List Nat} (M : Entry vm args) {u w : VM} (g : StigMid vm id ca t ref l u) (h : ret0 u = .ok w) : ∃ a, BackWith vm u w a ∧ Holds w.heap a (.atom .nil) := by
  obtain ⟨f, fs, self, p, st, r, q, hf, _, hr, hq⟩ := M.ex
  obtain ⟨d, hd⟩ := g.inv.rest (p :: st) (by rw [g.rest, hr]; simp) p (by simp)
  have := g.stays.same p _ (by simp) hq d hd
  subst this
  unfold ret0 at h
  rw [g.frames, hf, g.rest, hr] at h
  simp only [retTo] at h
  unfold need at h
  rw [if_neg (by simp)] at h
  have hp := (peek_top (vm := { u with swarmstack := if f.swarm then u.swarmstack.tail else u.swarmstack, frames := fs, rest := r }) hd st).1
  rw [hp, Res.ok_bind] at h
  cases h
  exact ⟨_, ⟨⟨f, p, st, q, hf, hr, hq, rfl, rfl, rfl⟩, rfl, fun _ _ h => newobj_holds h⟩, holds_new g.inv.heap _⟩

/-- What holds after the calls for the entries `d`. -/
def StigAlong (E : Env) (F : CFuns) (m : Nat) (id ca : Nat) (t : Table.Tbl VElem) (ref : Int) (l : List Nat) (vm : VM) (d : List StigEntry) (u : VM) : Prop :=
  ∃ cs, d = cs.map (·.1) ∧ StigCalls E F m ca vm cs u ∧ StigMid vm id ca t ref l u

theorem sforeach_step (hF : FOk F) (hH : FHome F) (hA : FApart F) (hK : FFirm F) (i0 : VInv vm) (hrob : ∀ e ∈ Dict.entries t, e.2.robot < 65536) (d : List StigEntry) (e : StigEntry)
    (r : List StigEntry) (u v : VM) (hd : Dict.entries t = d ++ e :: r) (hg : StigAlong E F m id ca t ref l vm d u) (hu : u.state = .ready) (hb : stigEach E F m ca e u = .ok v)
    (hv : v.state = .ready) : StigAlong E F m id ca t ref l vm (d ++ [e]) v ∨ StigDisturbed E F m id ca t vm := by
  obtain ⟨cs, rfl, k, g⟩ := hg
  unfold stigEach at hb
  rw [if_neg (by simp [hu])] at hb
  have he : e ∈ Dict.entries t := by rw [hd]; simp
  obtain ⟨r', c, kc, i, hcl, st⟩ := sone_call hF hH hA hK i0 g he (hrob e he) hb hv
  by_cases htab : StigHas v id t
  · left
    refine ⟨cs ++ [(e, r', c)], by simp, .call k kc, ⟨i, hv, htab, hcl, st, kc.rest.trans g.rest, kc.frames.trans g.frames, kc.pc.trans g.pc, kc.code.trans g.code, ?_⟩⟩
    rw [kc.stack]
    exact List.mem_cons_of_mem _ g.caS
  · exact .inr ⟨cs, e, r, u, v, r', c, hd, k, kc, htab⟩

theorem sforeach_skip (e : StigEntry) (u : VM) (hu : u.state ≠ .ready) : stigEach E F m ca e u = .ok u := by
  unfold stigEach
  rw [if_pos hu]
  rfl

theorem sforeach_start {vm0 : VM} {s : List Nat} (M : Method vm obj [ca]) (p : Prepared vm vm0) (s0 : vm0.stack = ca :: s) (ht : StigHas vm id t) (hc : Holds vm.heap ca (.clo true ref l)) :
    StigAlong E F m id ca t ref l vm0 [] vm0 :=
  ⟨[], rfl, .start, p.inv, p.state.trans M.ready, by obtain ⟨st, h1, h2⟩ := ht; exact ⟨st, by rw [p.other]; exact h1, h2⟩, p.heap _ _ hc, .refl _, rfl, rfl, rfl, rfl, by rw [s0]; simp⟩

/-! ### The theorems -/

/-- **C79** `s.foreach(f)` for the stigmergy `id`, with a function of the script: when it ends with the machine ready, `f` has been called once for each entry of the
stigmergy, in the order of its dictionary, with the entry's key, value and robot, each time on the machine left by the call before (with the results so far on its stack);
and nil has been returned.  Otherwise a call has changed the stigmergy. -/
theorem C79_foreach (hF : FOk F) (hH : FHome F) (hA : FApart F) (hK : FFirm F) {w : VM} (M : Method vm obj [ca]) (hid : HasId E vm obj id) (ht : StigHas vm id t)
    (hrob : ∀ e ∈ Dict.entries t, e.2.robot < 65536) (hc : Holds vm.heap ca (.clo true ref l)) (hz : vm.strings.id2str.length ≤ 65533) (h : stigForeach E F m vm = .ok w)
    (hw : w.state = .ready) :
    ∃ vm0, Prepared vm vm0 ∧
      ((∃ cs u a, Dict.entries t = cs.map (·.1) ∧ StigCalls E F m ca vm0 cs u ∧ BackWith vm0 u w a ∧ Holds w.heap a (.atom .nil)) ∨ StigDisturbed E F m id ca t vm0) := by
  obtain ⟨vm0, e0, p, s, hs⟩ := sforeach_eq (E := E) (F := F) (m := m) M hid ht hc hz
  refine ⟨vm0, p, ?_⟩
  rw [e0] at h
  obtain ⟨x, h1, h2⟩ := Res.bind_eq_ok.mp h
  have hx := ret0_state h2 hw
  have M0 := (p.method M).entry
  rcases stigDictForeach_visits (t := t) (G := StigAlong E F m id ca t ref l vm0) (B := fun _ => StigDisturbed E F m id ca t vm0) sforeach_skip
    (fun d u ⟨_, _, _, g⟩ => stigAt_iff.mpr g.data) (sforeach_step hF hH hA hK p.inv hrob) (sforeach_start M p hs ht hc) M0.ready h1 hx with ⟨cs, e, k, g⟩ | ⟨_, _, _, _, b⟩
  · obtain ⟨a, b, n⟩ := sback_ret0 M0 g h2
    exact .inl ⟨cs, x, a, e, k, b, n⟩
  · exact .inr b

/-- **C79** `s.foreach(f)` that ends with the machine not ready: everything went as in `C79_foreach` up to the call for one of the entries; that call failed, and nothing
was done after it but the return of `foreach` itself; no further calls. -/
theorem C79_foreach_stops (hF : FOk F) (hH : FHome F) (hA : FApart F) (hK : FFirm F) {w : VM} (M : Method vm obj [ca]) (hid : HasId E vm obj id) (ht : StigHas vm id t)
    (hrob : ∀ e ∈ Dict.entries t, e.2.robot < 65536) (hc : Holds vm.heap ca (.clo true ref l)) (hz : vm.strings.id2str.length ≤ 65533) (h : stigForeach E F m vm = .ok w)
    (hw : w.state ≠ .ready) :
    ∃ vm0, Prepared vm vm0 ∧ ((∃ x, StigFailed E F m ca t vm0 x ∧ ret0 x = .ok w) ∨ StigDisturbed E F m id ca t vm0) := by
  obtain ⟨vm0, e0, p, s, hs⟩ := sforeach_eq (E := E) (F := F) (m := m) M hid ht hc hz
  refine ⟨vm0, p, ?_⟩
  rw [e0] at h
  obtain ⟨x, h1, h2⟩ := Res.bind_eq_ok.mp h
  have M0 := (p.method M).entry
  by_cases hx : x.state = .ready
  · rcases stigDictForeach_visits (t := t) (G := StigAlong E F m id ca t ref l vm0) (B := fun _ => StigDisturbed E F m id ca t vm0) sforeach_skip
      (fun d u ⟨_, _, _, g⟩ => stigAt_iff.mpr g.data) (sforeach_step hF hH hA hK p.inv hrob) (sforeach_start M p hs ht hc) M0.ready h1 hx with ⟨cs, e, k, g⟩ | ⟨_, _, _, _, b⟩
    · obtain ⟨a, b, n⟩ := sback_ret0 M0 g h2
      exact absurd ((back_state b).trans hx) hw
    · exact .inr b
  · rcases stigDictForeach_stops (t := t) (G := StigAlong E F m id ca t ref l vm0) (B := fun _ => StigDisturbed E F m id ca t vm0) sforeach_skip
      (fun d u ⟨_, _, _, g⟩ => stigAt_iff.mpr g.data) (sforeach_step hF hH hA hK p.inv hrob) (sforeach_start M p hs ht hc) M0.ready h1 hx with ⟨d, e, r, u, hd, ⟨cs, rfl, k, g⟩, hu, hb⟩ | ⟨_, _, _, _, b⟩
    · refine .inl ⟨x, ⟨cs, e, r, u, hd, k, ?_, hx⟩, h2⟩
      unfold stigEach at hb
      rw [if_neg (by simp [hu])] at hb
      exact hb
    · exact .inr b

/-- **C79** If there is no stigmergy with the number, `s.foreach(f)` returns nil and calls nothing, whatever `f` is. -/
theorem C79_foreach_unknown (M : Method vm obj [ca]) (hid : HasId E vm obj id) (hn : FMap.get vm.other.vstigs id = none) (hz : vm.strings.id2str.length ≤ 65533) :
    ∃ vm0 w a, stigForeach E F m vm = .ok w ∧ Prepared vm vm0 ∧ BackWith vm vm0 w a ∧ Holds w.heap a (.atom .nil) ∧ w.state = .ready := by
  obtain ⟨u, e, p⟩ := stigId_prep (E := E) M hid hz
  have M0 := (p.method M).entry
  obtain ⟨f, fs, self, b, st, r, q, hf, _, hr, hq⟩ := M0.ex
  have hp := (peek_top (vm := { u with swarmstack := if f.swarm then u.swarmstack.tail else u.swarmstack, frames := fs, rest := r }) hq st).1
  have h2 : ∃ w, ret0 u = .ok w := by
    unfold ret0
    rw [hf, hr]
    simp only [retTo]
    unfold need
    rw [if_neg (by simp), hp, Res.ok_bind]
    exact ⟨_, rfl⟩
  obtain ⟨w, h2⟩ := h2
  have key : ∃ a, BackWith vm u w a ∧ Holds w.heap a (.atom .nil) := by
    obtain ⟨f', fs', p', st', r', q', hf', _, hr', hq'⟩ := M.ex
    have hq2 := p.heap _ _ hq'
    have hf2 := p.frames.trans hf'
    have hr2 := p.rest.trans hr'
    unfold ret0 at h2
    rw [hf2, hr2] at h2
    simp only [retTo] at h2
    unfold need at h2
    rw [if_neg (by simp)] at h2
    have hp := (peek_top (vm := { u with swarmstack := if f'.swarm then u.swarmstack.tail else u.swarmstack, frames := fs', rest := r' }) hq2 st').1
    rw [hp, Res.ok_bind] at h2
    cases h2
    exact ⟨_, ⟨⟨f', p', st', q', hf', hr', hq', rfl, rfl, rfl⟩, rfl, fun _ _ h => newobj_holds h⟩, holds_new p.inv.heap _⟩
  obtain ⟨a, k1, k2⟩ := key
  refine ⟨u, w, a, ?_, p, k1, k2, (back_state k1).trans (p.state.trans M.ready)⟩
  unfold stigForeach
  rw [M.entry.lnum, Res.ok_bind, if_neg (by simp), e, Res.ok_bind]
  simp only [p.other, hn]
  exact h2

/-- **C79** An argument that is no function is a type error, and any other number of arguments than one an error; nothing is called. -/
theorem C79_foreach_errors {args : List Nat} (M : Method vm obj args) (hid : HasId E vm obj id) (hz : vm.strings.id2str.length ≤ 65533) :
    (args.length ≠ 1 → stigForeach E F m vm = .ok (setErr vm .lnum)) ∧
    (∀ a c, args = [a] → StigHas vm id t → Holds vm.heap a c → (∀ n r l, c ≠ .clo n r l) → ∃ u, Prepared vm u ∧ stigForeach E F m vm = .ok (setErr u .type)) := by
  constructor
  · intro h
    unfold stigForeach
    rw [M.entry.lnum, Res.ok_bind, if_pos (by simpa using h)]
    rfl
  · rintro a c rfl ⟨st, hst, _⟩ ha hn
    obtain ⟨u, e, p⟩ := stigId_prep (E := E) M hid hz
    refine ⟨pushAddr u a, p.push ⟨_, p.heap _ _ ha⟩, ?_⟩
    unfold stigForeach
    rw [M.entry.lnum, Res.ok_bind, if_neg (by simp), e, Res.ok_bind]
    simp only [p.other, hst]
    rw [method_load M p (k := 1) (a := a) rfl, Res.ok_bind, (peek_push (p.heap _ _ ha)).1, Res.ok_bind]
    cases c with
    | clo n r l => exact absurd rfl (hn n r l)
    | atom o => rfl
    | tab t => rfl

/-- **C79** The methods of the table made by `stigmergy.create` are the functions with those names, of the library with the functions of stigmergies. -/
theorem C79_methods {other : CFuns} {me base k : Nat} {w : VM} (hb : 28 ≤ base) (c : Created E base id vm w) : ∃ a st, w.stack = a :: st ∧ HasId E w a id ∧
    MethodIs E (stigAllFuns E me base m other (k + 1)) w a "foreach" (stigForeach E (stigAllFuns E me base m other k) m) ∧
    MethodIs E (stigAllFuns E me base m other (k + 1)) w a "size" (stigSize E) ∧
    MethodIs E (stigAllFuns E me base m other (k + 1)) w a "put" (stigPut E me) ∧
    MethodIs E (stigAllFuns E me base m other (k + 1)) w a "get" (stigGet E me) ∧
    MethodIs E (stigAllFuns E me base m other (k + 1)) w a "onconflict" (stigManager E false) ∧
    MethodIs E (stigAllFuns E me base m other (k + 1)) w a "onconflictlost" (stigManager E true) := by
  obtain ⟨f, p, st, a, q, _, _, _, _, hst, hid, g⟩ := c.ex
  have g : ∀ x n, (x, n) ∈ stigMethods.zipIdx → Field E w a x (.clo false ((base + n : Nat) : Int) [a]) := fun x n hx => g (x, n) hx
  refine ⟨a, st, hst, hid, ⟨base + 0, g _ _ (by decide), fun _ => ?_⟩, ⟨base + 1, g _ _ (by decide), fun _ => ?_⟩, ⟨base + 2, g _ _ (by decide), fun _ => ?_⟩, ⟨base + 3, g _ _ (by decide), fun _ => ?_⟩,
    ⟨base + 4, g _ _ (by decide), fun _ => ?_⟩, ⟨base + 5, g _ _ (by decide), fun _ => ?_⟩⟩
  · simp [stigAllFuns]
  all_goals
    have h1 : ∀ n, base + n ≠ 27 := by omega
    simp [stigAllFuns, stigFuns, h1]

end Buzz.Props
