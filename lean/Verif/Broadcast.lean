import Verif.Apart

/-
`neighbors.broadcast` (buzzneighbors.c 136-150) on the machine, and what becomes of the queued message until it is sent.
-/
namespace Buzz.VM

open Buzz.F32 Buzz.Msg Buzz.Heap Buzz.Props Buzz.HeapWire

/-- `buzzneighbors_broadcast` (buzzneighbors.c 136-150) with `buzzoutmsg_queue_append_broadcast` (buzzoutmsg.c 143-153): topic and value are
cloned, in this order, and appended to the queue.  The number of objects bounds the depth of an acyclic value; a table that contains itself is
never finished (`Heap.clone`). -/
def neighborsBroadcast (E : Env) (vm : VM) : Res VM :=
  match vm.frames with
  | [] => .ub
  | f :: _ =>
    if f.syms.length ≠ 3 then pure (setErr vm .lnum)
    else do
      let vm ← lload vm 1
      let t ← peek vm 1
      match t with
      | .str _ _ => do
        let vm ← lload vm 2
        let ta ← peekAddr vm 2
        let va ← peekAddr vm 1
        let p ← clone E.sc (vm.heap.objs.length + 1) vm.heap ta
        let q ← clone E.sc (p.1.objs.length + 1) p.1 va
        ret0 { vm with heap := q.1, other := { vm.other with bcasts := vm.other.bcasts ++ [(p.2, q.2)] } }
      | _ => pure (setErr vm .type)

/-- The payload made of the first queued broadcast (`buzzoutmsg_queue_first`, buzzoutmsg.c 365-378); `d` bounds the depth of the objects. -/
def broadcastPayload (h : Heap) (d : Nat) (m : Nat × Nat) : Res Bytes := do
  let t ← hser h d m.1
  let v ← hser h d m.2
  pure (ser8 0 ++ t ++ v)

/-- `onBroadcast` up to the call of the listener: the objects are read from the bytes and pushed (buzzvm.c 251-271). -/
def receive (E : Env) (buf : Bytes) (rid : Nat) (vm : VM) : Res VM := do
  let g ← hdeser E.sc buf (buf.length + 1) 1 vm.heap vm.strings
  match g.data with
  | none => .ub
  | some t => do
    let m ← deref g.h t
    match m.cell with
    | .atom (.str sid _) =>
      match FMap.get vm.other.listeners sid with
      | none => pure { vm with heap := g.h, strings := g.sm }
      | some l =>
        match g.pos with
        | none => .ub
        | some p => do
          let r ← hdeser E.sc buf (buf.length + 1) p g.h g.sm
          match r.data with
          | none => .ub
          | some v =>
            let o := newobj r.h (.atom (.int rid))
            pure { vm with heap := o.1, strings := r.sm, stack := o.2 :: v :: t :: l :: vm.stack }
    | _ => .ub

/-- What happens to a machine besides steps: the host's calls of the interface (buzzvm.c; `again` is `buzzvm_push` of what `buzzvm_stack_at` gave),
the arrival of broadcasts (the call of the listener is `self`, `call` and steps), and the removal of a sent broadcast (`buzzoutmsg_queue_next`,
buzzoutmsg.c 446-450). -/
inductive Act where
  | push (o : Obj) | pusht | pushs (sid : Nat) | pushcc (n : Nat) | again (i : Int) | register (s : Bytes) (protect : Bool) | pop | dup | tput | tget | gload
  | gstore | call (swarm : Bool) | self (argc : Nat) | recv (buf : Bytes) (rid : Nat) | sent

/-- The effect of such an action. -/
def Act.run (E : Env) (F : CFuns) : Act → VM → Res VM
  | .push o, vm => .ok (VM.push vm (.atom o))
  | .pusht, vm => .ok (pushT vm)
  | .pushs sid, vm => .ok (pushS vm sid)
  | .pushcc n, vm => .ok (pushC vm n false)
  | .again i, vm => do
    let a ← peekAddr vm i
    pure (pushAddr vm a)
  | .register s p, vm => do
    let r ← Strman.register vm.strings s p
    pure { vm with strings := r.1 }
  | .recv buf rid, vm => receive E buf rid vm
  | .pop, vm => .ok (VM.pop vm)
  | .dup, vm => .ok (VM.dup vm)
  | .tput, vm => VM.tput E vm
  | .tget, vm => VM.tget E vm
  | .gload, vm => VM.gload vm
  | .gstore, vm => VM.gstore vm
  | .call sw, vm => VM.call F sw vm
  | .self n, vm => insertSelf vm n
  | .sent, vm => .ok { vm with other := { vm.other with bcasts := vm.other.bcasts.tail } }

/-- The machine goes from one state to another, in steps and by actions of the host, and the message stays in the queue. -/
inductive While (E : Env) (F : CFuns) (m : Nat × Nat) (vm : VM) : VM → Prop where
  | here : m ∈ vm.other.bcasts → While E F m vm vm
  | step {v w : VM} : While E F m vm v → VInv v → step E F v = .ok w → m ∈ w.other.bcasts → While E F m vm w
  | act {v w : VM} (a : Act) : While E F m vm v → a.run E F v = .ok w → m ∈ w.other.bcasts → While E F m vm w

variable {fl : Nat} {P : Nat → Prop}

theorem insertSelf_sep {vm : VM} (h : Apart fl P vm) (n : Nat) : SepR fl P vm (insertSelf vm n) := by
  unfold insertSelf
  split
  · trivial
  · obtain ⟨s, pb⟩ := h.newobj (c := .atom .nil) (fun _ hb => by cases hb)
    refine ⟨⟨s.1.up, fun a ha => ?_, s.1.rest, s.1.frames, s.1.gsyms, s.1.other, s.1.cells, s.1.low⟩, s.2⟩
    rcases List.mem_append.mp ha with ha | ha
    · exact h.stack a (List.mem_of_mem_take ha)
    · rcases List.mem_cons.mp ha with rfl | ha
      · exact pb
      · exact h.stack a (List.mem_of_mem_drop ha)

/-- Reading an object from bytes. -/
theorem hdeser_sep {sc : Bytes → Bytes → Int} {buf : Bytes} : ∀ (d pos : Nat) (h : Heap) (sm : SM) (g : Got), HApart P h → hdeser sc buf d pos h sm = .ok g →
    HSep P h g.h ∧ ∀ a, g.data = some a → ¬ P a
  | 0, _, _, _, _, _, e => by cases e
  | d + 1, pos, h, sm, g, ha, e => by
    have one : ∀ {c : Cell} (sm' : SM) (q : Option Nat), (∀ b ∈ children c, ¬ P b) → HSep P h (⟨(newobj h c).1, sm', some (newobj h c).2, q⟩ : Got).h ∧
        ∀ a, (⟨(newobj h c).1, sm', some (newobj h c).2, q⟩ : Got).data = some a → ¬ P a := fun {c} sm' q hc => by
      obtain ⟨s, p⟩ := alloc_sep ha h.marker hc
      exact ⟨s, fun a e => by cases e; exact p⟩
    have atom : ∀ (o : Obj), ∀ b ∈ children (.atom o), ¬ P b := fun o b hb => by cases hb
    have none' : HSep P h (⟨h, sm, none, none⟩ : Got).h ∧ ∀ a, (⟨h, sm, none, none⟩ : Got).data = some a → ¬ P a := ⟨⟨ha, fun _ _ _ h => h⟩, fun a e => by cases e⟩
    have closure : ∀ (n : Bool) (r : Int) (q : Option Nat),
        HSep P h (write (newobj (newobj h (.clo false 0 [])).1 (.atom .nil)).1 (newobj h (.clo false 0 [])).2
          (.clo n r [(newobj (newobj h (.clo false 0 [])).1 (.atom .nil)).2])) ∧ ∀ a, some (newobj h (.clo false 0 [])).2 = some a → ¬ P a := by
      intro n r q
      obtain ⟨s1, p1⟩ := alloc_sep ha h.marker (c := .clo false 0 []) (fun b hb => by cases hb)
      obtain ⟨s2, p2⟩ := alloc_sep s1.1 h.marker (c := .atom .nil) (atom _)
      refine ⟨(s1.trans s2).trans (hwrite_sep s2.1 p1 fun b hb => ?_), fun a e => by cases e; exact p1⟩
      rw [show b = h.brk + 1 from List.mem_singleton.mp hb]
      exact p2
    unfold hdeser at e
    obtain ⟨r, _, e⟩ := Res.bind_eq_ok.mp e
    split at e
    · cases e; exact none'
    · split at e
      · cases e; exact one _ _ (atom _)
      · obtain ⟨r, _, e⟩ := Res.bind_eq_ok.mp e
        split at e <;> cases e <;> exact one _ _ (atom _)
      · obtain ⟨r, _, e⟩ := Res.bind_eq_ok.mp e
        split at e <;> cases e <;> exact one _ _ (atom _)
      · obtain ⟨r, _, e⟩ := Res.bind_eq_ok.mp e
        split at e
        · cases e; exact none'
        · obtain ⟨q, _, e⟩ := Res.bind_eq_ok.mp e
          cases e; exact one _ _ (atom _)
      · obtain ⟨r, _, e⟩ := Res.bind_eq_ok.mp e
        have ht : ∀ b ∈ children (.tab Table.new), ¬ P b := tab_children (fun e he => by simp [Table.new, Dict.entries_new] at he)
        split at e
        · cases e; exact one _ _ ht
        · obtain ⟨s0, p0⟩ := alloc_sep ha h.marker ht
          have loop : ∀ (n p : Nat) (h1 : Heap) (sm1 : SM) (g : Got), HApart P h1 →
              hloop sc (hdeser sc buf d) (newobj h (.tab Table.new)).2 n p h1 sm1 = .ok g → HSep P h1 g.h ∧ ∀ a, g.data = some a → ¬ P a := by
            intro n
            induction n with
            | zero => intro p h1 sm1 g h1a e; cases e; exact ⟨⟨h1a, fun _ _ _ h => h⟩, fun a e => by cases e; exact p0⟩
            | succ n ih =>
              intro p h1 sm1 g h1a e
              unfold hloop at e
              obtain ⟨k, e1, e⟩ := Res.bind_eq_ok.mp e
              obtain ⟨s1, q1⟩ := hdeser_sep d _ _ _ _ h1a e1
              split at e
              · rename_i p1 ka hp1 hka
                obtain ⟨v, e2, e⟩ := Res.bind_eq_ok.mp e
                obtain ⟨s2, q2⟩ := hdeser_sep d _ _ _ _ s1.1 e2
                split at e
                · rename_i p2 va hp2 hva
                  obtain ⟨m, e3, e⟩ := Res.bind_eq_ok.mp e
                  obtain ⟨km, e4, e⟩ := Res.bind_eq_ok.mp e
                  split at e
                  · rename_i t ht
                    obtain ⟨t', e5, e⟩ := Res.bind_eq_ok.mp e
                    have hm := deref_holds e3
                    rw [ht] at hm
                    have s3 := hwrite_sep s2.1 p0 (c := .tab t') (tab_children fun x hx => by
                      rcases table_set_mem e5 x hx with hx | rfl
                      · exact ⟨s2.1.cells _ _ hm p0 _ (tab_child hx).1, s2.1.cells _ _ hm p0 _ (tab_child hx).2⟩
                      · exact ⟨q1 _ hka, q2 _ hva⟩)
                    obtain ⟨s4, q4⟩ := ih _ _ _ _ s3.1 e
                    exact ⟨((s1.trans s2).trans s3).trans s4, q4⟩
                  · cases e
                · cases e; exact ⟨s1.trans s2, fun a e => by cases e; exact p0⟩
              · cases e; exact ⟨s1, fun a e => by cases e; exact p0⟩
          obtain ⟨s1, q1⟩ := loop _ _ _ _ _ s0.1 e
          exact ⟨s0.trans s1, q1⟩
      · obtain ⟨r, _, e⟩ := Res.bind_eq_ok.mp e
        split at e
        · cases e; exact closure _ _ none
        · obtain ⟨r, _, e⟩ := Res.bind_eq_ok.mp e
          split at e <;> cases e
          · exact closure _ _ none
          · exact closure _ _ none
      · cases e; exact one _ _ (atom _)
      · cases e

theorem receive_sep {E : Env} {buf : Bytes} {rid : Nat} {vm : VM} (h : Apart fl P vm) : SepR fl P vm (receive E buf rid vm) := by
  unfold receive
  refine sep_eq fun g e1 => ?_
  obtain ⟨s1, q1⟩ := hdeser_sep _ _ _ _ _ (⟨h.cells, h.low⟩ : HApart P vm.heap) e1
  split
  · trivial
  · rename_i t ht
    refine sep_any fun m => ?_
    split
    · split
      · exact ⟨⟨h.up, h.stack, h.rest, h.frames, h.gsyms, h.other, s1.1.cells, s1.1.low⟩, s1.2⟩
      · rename_i l hl
        split
        · trivial
        · refine sep_eq fun r e2 => ?_
          obtain ⟨s2, q2⟩ := hdeser_sep _ _ _ _ _ s1.1 e2
          split
          · trivial
          · rename_i v hv
            obtain ⟨s3, q3⟩ := alloc_sep s2.1 r.h.marker (c := .atom (.int rid)) (fun b hb => by cases hb)
            have s := (s1.trans s2).trans s3
            refine ⟨⟨h.up, fun a ha => ?_, h.rest, h.frames, h.gsyms, h.other, s.1.cells, s.1.low⟩, s.2⟩
            rcases List.mem_cons.mp ha with rfl | ha
            · exact q3
            rcases List.mem_cons.mp ha with rfl | ha
            · exact q2 _ hv
            rcases List.mem_cons.mp ha with rfl | ha
            · exact q1 _ ht
            rcases List.mem_cons.mp ha with rfl | ha
            · exact h.other _ (.inr ⟨_, FMap.mem_of_get hl, rfl⟩)
            · exact h.stack a ha
    · trivial

theorem act_sep {E : Env} {F : CFuns} (hF : FApart F) {vm : VM} (h : Apart 0 P vm) (a : Act) : SepR 0 P vm (a.run E F vm) := by
  cases a with
  | push o => exact h.pushAtom o
  | pusht => exact pushT_sep h
  | pushs sid => exact pushS_sep h sid
  | pushcc n => exact pushC_sep h n false
  | again i => exact sep_eq fun a e => (Sep.refl h).pushAddr (h.stack a (peekAddr_mem e))
  | register s p => exact sep_any fun r => ⟨⟨h.up, h.stack, h.rest, h.frames, h.gsyms, h.other, h.cells, h.low⟩, fun _ _ _ h => h⟩
  | recv buf rid => exact receive_sep h
  | pop => exact pop_sep h
  | dup => exact dup_sep h
  | tput => exact tput_sep h
  | tget => exact tget_sep h
  | gload => exact gload_sep h
  | gstore => exact gstore_sep h
  | call sw => exact (call_sep hF h sw).strict
  | self n => exact insertSelf_sep h n
  | sent => exact ⟨⟨h.up, h.stack, h.rest, h.frames, h.gsyms, h.other, h.cells, h.low⟩, fun _ _ _ h => h⟩

theorem broadcast_sep {E : Env} {vm : VM} (h : Apart fl P vm) : SepT fl P vm (neighborsBroadcast E vm) := by
  unfold neighborsBroadcast
  split
  · trivial
  · split
    · exact Or.inl ((Sep.refl h).setErr _)
    · refine tl_then (lload_sep h 1) fun v s => tl_any fun t => ?_
      split
      · refine tl_then (sep_from s fun h => lload_sep h 2) fun v s => tl_eq fun ta e1 => tl_eq fun va e2 => tl_eq fun p e3 => tl_eq fun q e4 => ?_
        obtain ⟨s1, _⟩ := clone_sep _ _ _ _ _ (⟨s.1.cells, s.1.low⟩ : HApart P v.heap) (s.1.stack ta (peekAddr_mem e1)) e3
        obtain ⟨s2, _⟩ := clone_sep _ _ _ _ _ s1.1 (s.1.stack va (peekAddr_mem e2)) e4
        have s3 := s1.trans s2
        exact tl_from (v := { v with heap := q.1, other := { v.other with bcasts := v.other.bcasts ++ [(p.2, q.2)] } })
          ⟨⟨s.1.up, s.1.stack, s.1.rest, s.1.frames, s.1.gsyms, s.1.other, s3.1.cells, s3.1.low⟩, fun a c hp hh => s3.2 a c hp (s.2 a c hp hh)⟩ ret0_sep
      · exact Or.inl (s.setErr _)

/-! ### Cloning keeps memory valid -/

theorem holds_alloc_new {h : Heap} (i : Inv h) (mk : Nat) (c : Cell) : Holds (alloc h mk c).1 h.brk c := ⟨⟨mk, c⟩, by rw [get_alloc i, if_pos rfl], rfl⟩

theorem holds_alloc_old {h : Heap} (i : Inv h) (mk : Nat) (c : Cell) {x : Nat} {d : Cell} (hh : Holds h x d) : Holds (alloc h mk c).1 x d := by
  obtain ⟨m, h1, h2⟩ := hh
  exact ⟨m, by rw [get_alloc i, if_neg (by have := lt_brk i h1; omega), h1], h2⟩

theorem alloc_ok {sm : Strman.SM Bytes} {h : Heap} (w : HeapWire.WInv h sm) {c : Cell} (hc : CellOk h sm c) : HeapWire.WInv (alloc h h.marker c).1 sm :=
  w.alloc hc

theorem table_set_len {V : Type} {sc : Bytes → Bytes → Int} {t t' : Table.Tbl V} {k : Obj} {v : V} (h : Table.set sc t k v = .ok t') :
    t'.buckets.length = t.buckets.length := by
  unfold Table.set at h
  obtain ⟨_, _, h⟩ := Res.bind_eq_ok.mp h
  obtain ⟨r, h1, h2⟩ := Res.bind_eq_ok.mp h
  cases h2
  by_cases hn : t.buckets.length = 0
  · unfold Dict.set Dict.slot at h1
    rw [if_pos hn] at h1
    cases h1
  · obtain ⟨r', h3, h4, _⟩ := dict_set_mem Table.hashN (Table.keq sc) hn k v
    rw [h1] at h3
    cases h3
    exact h4

/-- Cloning keeps all objects as they are and the heap valid; what holds a number or string is copied as such. -/
theorem clone_ok {sc : Bytes → Bytes → Int} {sm : Strman.SM Bytes} : ∀ (fuel : Nat) (h : Heap) (a : Nat) (h' : Heap) (b : Nat), HeapWire.WInv h sm →
    Live h a → clone sc fuel h a = .ok (h', b) → HeapWire.WInv h' sm ∧ (∀ x c, Holds h x c → Holds h' x c) ∧ Live h' b ∧
      ∀ o, Holds h a (.atom o) → Holds h' b (.atom o)
  | 0, _, _, _, _, _, _, e => by cases e
  | fuel + 1, h, a, h', b, w, la, e => by
    unfold clone at e
    obtain ⟨m, e1, e⟩ := Res.bind_eq_ok.mp e
    have hm := deref_holds e1
    have hmk : m.mark = h.marker := by
      unfold deref at e1
      split at e1
      · rename_i x hx
        cases e1
        exact w.heap.marks _ (FMap.mem_of_get hx)
      · cases e1
    split at e
    · rename_i t hc
      obtain ⟨r, e2, e⟩ := Res.bind_eq_ok.mp e
      simp only [Res.pure_eq, Res.ok.injEq, Prod.mk.injEq] at e
      obtain ⟨rfl, rfl⟩ := e
      rw [hc] at hm
      have hk := w.cells _ _ hm
      rw [hmk] at e2
      have w0 : HeapWire.WInv (alloc h h.marker (.tab (Dict.new t.buckets.length))).1 sm :=
        alloc_ok w ⟨by simp [Dict.new]; exact fun h0 => hk.1 (by simp [h0]), fun e he => by simp [Dict.entries_new] at he⟩
      have loop : ∀ (es : List (Obj × (Nat × Nat))) (p r : Heap × Table.Tbl (Nat × Nat)),
          (∀ e ∈ es, isKey e.1 = true ∧ Obj.tableHash e.1 ≠ .ub ∧ Holds p.1 e.2.1 (.atom e.1) ∧ Live p.1 e.2.2) → HeapWire.WInv p.1 sm →
          CellOk p.1 sm (.tab p.2) → es.foldlM (Heap.elem sc fuel) p = .ok r →
          HeapWire.WInv r.1 sm ∧ (∀ x c, Holds p.1 x c → Holds r.1 x c) ∧ CellOk r.1 sm (.tab r.2) := by
        intro es
        induction es with
        | nil => intro p r _ hp ht e; cases e; exact ⟨hp, fun _ _ h => h, ht⟩
        | cons x es ih =>
          intro p r hes hp ht e
          rw [List.foldlM_cons] at e
          obtain ⟨q, e3, e4⟩ := Res.bind_eq_ok.mp e
          unfold Heap.elem at e3
          obtain ⟨⟨h1, k⟩, f1, e3⟩ := Res.bind_eq_ok.mp e3
          obtain ⟨⟨h2, d⟩, f2, e3⟩ := Res.bind_eq_ok.mp e3
          obtain ⟨kc, f3, e3⟩ := Res.bind_eq_ok.mp e3
          obtain ⟨t', f4, e3⟩ := Res.bind_eq_ok.mp e3
          cases e3
          obtain ⟨x1, x2, x3, ⟨cx, x4⟩⟩ := hes x (List.mem_cons_self ..)
          obtain ⟨w1, k1, l1, a1⟩ := clone_ok fuel _ _ _ _ hp ⟨_, x3⟩ f1
          obtain ⟨w2, k2, l2, _⟩ := clone_ok fuel _ _ _ _ w1 ⟨cx, k1 _ _ x4⟩ f2
          have ha := k2 _ _ (a1 _ x3)
          have hkc : kc.cell = .atom x.1 := holds_inj (deref_holds f3) ha
          simp only [hkc, objOf] at f4
          have hl : ∀ y, Live p.1 y → Live h2 y := fun y ⟨c, hc⟩ => ⟨c, k2 _ _ (k1 _ _ hc)⟩
          obtain ⟨w3, k3, t3⟩ := ih (h2, t') r (fun y hy => by
            obtain ⟨y1, y2, y3, y4⟩ := hes y (List.mem_cons_of_mem _ hy)
            exact ⟨y1, y2, k2 _ _ (k1 _ _ y3), hl _ y4⟩) w2 ⟨by rw [table_set_len f4]; exact ht.1, fun y hy => by
            rcases table_set_mem f4 y hy with hy | rfl
            · obtain ⟨y1, y2, y3, y4⟩ := ht.2 y hy
              exact ⟨y1, y2, k2 _ _ (k1 _ _ y3), hl _ y4⟩
            · exact ⟨x1, x2, ha, l2⟩⟩ e4
          exact ⟨w3, fun y c hy => k3 y c (k2 _ _ (k1 _ _ hy)), t3⟩
      have hold := fun x d (hh : Holds h x d) => holds_alloc_old w.heap h.marker (.tab (Dict.new t.buckets.length)) hh
      obtain ⟨w1, k1, t1⟩ := loop _ _ _ (fun x hx => by
        obtain ⟨x1, x2, x3, ⟨c, x4⟩⟩ := hk.2 x hx
        exact ⟨x1, x2, hold _ _ x3, ⟨c, hold _ _ x4⟩⟩) w0
        ⟨by simp [Dict.new]; exact fun h0 => hk.1 (by simp [h0]), fun e he => by simp [Dict.entries_new] at he⟩ e2
      have hself : Holds r.1 h.brk (.tab (Dict.new t.buckets.length)) := k1 _ _ (holds_alloc_new w.heap _ _)
      have kw : ∀ x c, x ≠ h.brk → Holds r.1 x c → Holds (write r.1 h.brk (.tab r.2)) x c := by
        rintro x c hx ⟨mm, g1, g2⟩
        exact ⟨mm, by rw [get_write, if_neg hx, g1], g2⟩
      have ka : ∀ x o, Holds r.1 x (.atom o) → Holds (write r.1 h.brk (.tab r.2)) x (.atom o) := fun x o hx =>
        kw x _ (by rintro rfl; cases holds_inj hx hself) hx
      have kb : Holds (write r.1 h.brk (.tab r.2)) h.brk (.tab r.2) := by
        obtain ⟨mm, g1, _⟩ := hself
        exact ⟨_, by rw [get_write, if_pos rfl, g1]; rfl, rfl⟩
      have kl : ∀ x, Live r.1 x → Live (write r.1 h.brk (.tab r.2)) x := fun x ⟨c, hx⟩ => by
        by_cases hb : x = h.brk
        · subst hb; exact ⟨_, kb⟩
        · exact ⟨c, kw x c hb hx⟩
      refine ⟨⟨inv_write w1.heap (fun y hy => ?_), w1.strings, fun x c hx => ?_⟩, fun x c hx => ?_, ⟨_, kb⟩, fun o ho => ?_⟩
      · obtain ⟨c, hc⟩ : Live r.1 y := by
          simp only [children, List.mem_flatMap] at hy
          obtain ⟨e, he, hb⟩ := hy
          obtain ⟨_, _, y3, y4⟩ := t1.2 e he
          simp only [List.mem_cons, List.not_mem_nil, or_false] at hb
          rcases hb with rfl | rfl
          exacts [⟨_, y3⟩, y4]
        exact holds_isSome.mpr ⟨c, hc⟩
      · obtain ⟨mm, g1, g2⟩ := hx
        rw [get_write] at g1
        split at g1
        · obtain ⟨m', _, g3⟩ := Option.map_eq_some_iff.mp g1
          rw [← g2, ← g3]
          exact t1.mono ka kl (fun _ _ h => h)
        · exact (w1.cells x c ⟨mm, g1, g2⟩).mono ka kl (fun _ _ h => h)
      · have := holds_lt w.heap hx
        exact kw x c (by omega) (k1 _ _ (hold _ _ hx))
      · cases holds_inj hm ho
    · rename_i c hc
      cases e
      rw [hmk]
      exact ⟨alloc_ok w (w.cells _ _ hm), fun x d hx => holds_alloc_old w.heap _ _ hx, ⟨_, holds_alloc_new w.heap _ _⟩, fun o ho => by
        rw [holds_inj hm ho]
        exact holds_alloc_new w.heap _ _⟩

/-! ### Objects of a value -/

/-- The objects of the value at `a`: itself and all keys and values of tables below. -/
def Part (h : Heap) (a x : Nat) : Prop := x = a ∨ Below h a x

theorem Part.elem {h : Heap} {a x y : Nat} (p : Part h a x) (e : Elem h x y) : Part h a y := by
  rcases p with rfl | p
  · exact .inr (.one e)
  · exact .inr (.more p e)

/-- All objects of a copy are new. -/
theorem copy_part {h h' : Heap} {lo a b : Nat} (c : Copy h h' lo a b) : ∀ x, Part h' b x → lo ≤ x := by
  have split : ∀ {b x : Nat}, Below h' b x → ∃ y, Elem h' b y ∧ Part h' y x := by
    intro b x r
    induction r with
    | one e => exact ⟨_, e, .inl rfl⟩
    | more _ e ih =>
      obtain ⟨y, h1, h2⟩ := ih
      exact ⟨y, h1, h2.elem e⟩
  induction c with
  | atom o h1 h2 h3 h4 h5 =>
    rintro x (rfl | p)
    · exact h5
    · obtain ⟨y, ⟨m, t, g1, g2, _⟩, _⟩ := split p
      rw [h2] at g1; cases g1; rw [h4] at g2; cases g2
  | clo n r l h1 h2 h3 h4 h5 =>
    rintro x (rfl | p)
    · exact h5
    · obtain ⟨y, ⟨m, t, g1, g2, _⟩, _⟩ := split p
      rw [h2] at g1; cases g1; rw [h4] at g2; cases g2
  | tab t t' g h1 h2 h3 h4 h5 h6 _ _ ih1 ih2 =>
    rintro x (rfl | p)
    · exact h5
    · obtain ⟨y, ⟨m, t1, g1, g2, e, he, hy⟩, px⟩ := split p
      rw [h2] at g1; cases g1; rw [h4] at g2; cases g2
      obtain ⟨q1, e0, q2, q3⟩ := (h6 e).mp he
      rw [q1, ← q3] at hy
      rcases hy with rfl | rfl
      · exact ih1 e0 q2 x px
      · exact ih2 e0 q2 x px

/-- A copy stands for what the original stands for. -/
theorem copy_repr {h h' : Heap} {lo a b : Nat} (c : Copy h h' lo a b) (hn : ∀ x t, Part h a x → Holds h x (.tab t) → FMap.Ok (Dict.entries t))
    (hn' : ∀ x t, lo ≤ x → Holds h' x (.tab t) → FMap.Ok (Dict.entries t)) {l0 : Nat} {v : Value.Val} (r : Repr h l0 a v) : Repr h' lo b v := by
  induction c generalizing v with
  | atom o h1 h2 h3 h4 h5 =>
    have e0 : Holds h _ (.atom o) := ⟨_, h1, h3⟩
    have e1 : Holds h' _ (.atom o) := ⟨_, h2, h4⟩
    cases r with
    | nil _ q => cases holds_inj e0 q; exact .nil h5 e1
    | int _ q => cases holds_inj e0 q; exact .int h5 e1
    | flt _ q => cases holds_inj e0 q; exact .flt h5 e1
    | str _ q => cases holds_inj e0 q; exact .str h5 e1
    | user _ q => cases holds_inj e0 q; exact .user h5 e1
    | table _ q => cases holds_inj e0 q
    | clo _ q => cases holds_inj e0 q
  | clo n k l h1 h2 h3 h4 h5 =>
    have e0 : Holds h _ (.clo n k l) := ⟨_, h1, h3⟩
    have e1 : Holds h' _ (.clo n k l) := ⟨_, h2, h4⟩
    cases r with
    | nil _ q => cases holds_inj e0 q
    | int _ q => cases holds_inj e0 q
    | flt _ q => cases holds_inj e0 q
    | str _ q => cases holds_inj e0 q
    | user _ q => cases holds_inj e0 q
    | table _ q => cases holds_inj e0 q
    | clo _ q => cases holds_inj e0 q; exact .clo h5 e1
  | @tab a b _ _ t t' g h1 h2 h3 h4 h5 h6 c1 c2 ih1 ih2 =>
    have e0 : Holds h a (.tab t) := ⟨_, h1, h3⟩
    have e1 : Holds h' b (.tab t') := ⟨_, h2, h4⟩
    cases r with
    | nil _ q => cases holds_inj e0 q
    | int _ q => cases holds_inj e0 q
    | flt _ q => cases holds_inj e0 q
    | str _ q => cases holds_inj e0 q
    | user _ q => cases holds_inj e0 q
    | clo _ q => cases holds_inj e0 q
    | @table _ _ l es _ q hp re =>
      cases holds_inj e0 q
      have kt := hn a t (.inl rfl) e0
      have kt' := hn' b t' h5 e1
      have hel : ∀ e ∈ Dict.entries t, ∀ c, c = e.2.1 ∨ c = e.2.2 → ∀ x, Part h c x → Part h a x := by
        intro e he c hc x hx
        have : Elem h a c := ⟨_, t, h1, h3, e, he, by rcases hc with rfl | rfl <;> simp⟩
        rcases hx with rfl | hx
        · exact .inr (.one this)
        · exact .inr (.head this hx)
      refine .table (l := l.map (fun e => (e.1, g e.1))) h5 e1 ?_ ?_
      · have n1 : (l.map (fun e => (e.1, g e.1))).Nodup := by
          refine List.Nodup.of_map Prod.fst ?_
          rw [List.map_map]
          exact ((hp.map Prod.fst).nodup_iff).mpr kt
        have n2 : (Dict.entries t').Nodup := List.Nodup.of_map Prod.fst kt'
        rw [List.perm_ext_iff_of_nodup n1 n2]
        intro x
        rw [h6, List.mem_map]
        constructor
        · rintro ⟨e, he, rfl⟩
          exact ⟨rfl, e, hp.mem_iff.mp he, rfl⟩
        · rintro ⟨k1, e, he, k2⟩
          exact ⟨e, hp.mem_iff.mpr he, by rw [k2, ← k1]⟩
      · have sub : ∀ e ∈ l, e ∈ Dict.entries t := fun e he => hp.mem_iff.mp he
        clear hp q
        induction l generalizing es with
        | nil => cases re; exact .nil
        | cons e0 l ih =>
          obtain ⟨ko, ka, va⟩ := e0
          cases re with | cons k1 k2 k3 re =>
          have hm := sub _ (List.mem_cons_self ..)
          have r1 := ih1 _ hm (fun x t hx => hn x t (hel _ hm _ (.inl rfl) x hx)) k2
          have r2 := ih2 _ hm (fun x t hx => hn x t (hel _ hm _ (.inr rfl) x hx)) k3
          refine .cons ?_ r1 r2 (ih re (fun e he => sub e (List.mem_cons_of_mem _ he)))
          have ck := c1 _ hm
          simp only at ck
          cases ck with
          | atom o g1 g2 g3 g4 => cases holds_inj k1 ⟨_, g1, g3⟩; exact ⟨_, g2, g4⟩
          | clo n k l g1 _ g3 => cases holds_inj k1 ⟨_, g1, g3⟩
          | tab t t' g g1 _ g3 => cases holds_inj k1 ⟨_, g1, g3⟩

theorem acyclic_of {h : Heap} {a : Nat} {c : Cell} (hc : Holds h a c) (h0 : ∀ t, c = .tab t → ∀ e ∈ Dict.entries t, Acyclic h e.2.1 ∧ Acyclic h e.2.2) :
    Acyclic h a := by
  refine .mk fun b => ?_
  rintro ⟨m, t, g1, g2, e, he, hb⟩
  have := h0 t (holds_inj hc ⟨m, g1, g2⟩) e he
  rcases hb with rfl | rfl
  exacts [this.1, this.2]

mutual
/-- What stands for a tree is acyclic. -/
theorem repr_acyclic {h : Heap} {lo : Nat} : ∀ {a : Nat} {v : Value.Val}, Repr h lo a v → Acyclic h a
  | _, _, .nil _ q => acyclic_of q (fun _ e => by cases e)
  | _, _, .int _ q => acyclic_of q (fun _ e => by cases e)
  | _, _, .flt _ q => acyclic_of q (fun _ e => by cases e)
  | _, _, .str _ q => acyclic_of q (fun _ e => by cases e)
  | _, _, .user _ q => acyclic_of q (fun _ e => by cases e)
  | _, _, .clo _ q => acyclic_of q (fun _ e => by cases e)
  | _, _, .table _ q hp re => acyclic_of q (fun _ e x hx => by cases e; exact reprE_acyclic re x (hp.mem_iff.mpr hx))
theorem reprE_acyclic {h : Heap} {lo : Nat} : ∀ {l : List (Obj × (Nat × Nat))} {es : Value.Ents}, ReprE h lo l es → ∀ e ∈ l, Acyclic h e.2.1 ∧ Acyclic h e.2.2
  | _, _, .nil => fun e he => by cases he
  | _, _, .cons _ k v r => fun e he => by
    rcases List.mem_cons.mp he with rfl | he
    · exact ⟨repr_acyclic k, repr_acyclic v⟩
    · exact reprE_acyclic r e he
end

/-- The serialiser looks at the objects of the value only. -/
theorem hser_part {h h' : Heap} {S : Nat → Prop} (hs : ∀ x, S x → ∃ c, Holds h x c ∧ Holds h' x c) (he : ∀ x y, S x → Elem h x y → S y) :
    ∀ (d x : Nat), S x → hser h d x = hser h' d x
  | 0, _, _ => rfl
  | d + 1, x, sx => by
    obtain ⟨c, h1, h2⟩ := hs x sx
    obtain ⟨m, d1, c1⟩ := holds_deref h1
    obtain ⟨m', d2, c2⟩ := holds_deref h2
    unfold hser
    rw [d1, d2]
    simp only [Res.ok_bind, c1, c2]
    cases c with
    | atom o => cases o <;> rfl
    | clo n r l => rfl
    | tab t =>
      simp only
      have hel : ∀ e ∈ Dict.entries t, S e.2.1 ∧ S e.2.2 := fun e hh => by
        obtain ⟨m0, g1, g2⟩ := h1
        exact ⟨he x _ sx ⟨m0, t, g1, g2, e, hh, .inl rfl⟩, he x _ sx ⟨m0, t, g1, g2, e, hh, .inr rfl⟩⟩
      congr 1
      generalize ([] : Bytes) = acc
      generalize Dict.entries t = l at hel
      induction l generalizing acc with
      | nil => rfl
      | cons e l ih =>
        rw [List.foldlM_cons, List.foldlM_cons]
        rw [hser_part hs he d _ (hel e (List.mem_cons_self ..)).1, hser_part hs he d _ (hel e (List.mem_cons_self ..)).2]
        congr 1
        funext b
        exact ih b (fun e hh => hel e (List.mem_cons_of_mem _ hh))

/-! ### The queued message -/

/-- While the message is in the queue its objects stay as they are. -/
theorem while_cells {E : Env} {F : CFuns} (hF : FApart F) {m : Nat × Nat} {vm u : VM} {H : Heap} (ha : Apart 0 P vm)
    (hp : ∀ x, Part H m.1 x ∨ Part H m.2 x → P x) (hh : ∀ x c, P x → Holds H x c → Holds vm.heap x c)
    (hl : ∀ x, Part H m.1 x ∨ Part H m.2 x → ∃ c, Holds H x c) (w : While E F m vm u) :
    Apart 0 P u ∧ m ∈ u.other.bcasts ∧ ∀ x c, Part H m.1 x ∨ Part H m.2 x → Holds H x c → Holds u.heap x c := by
  induction w with
  | here hm => exact ⟨ha, hm, fun x c px => hh x c (hp x px)⟩
  | @step v w _ iv e hm ih =>
    obtain ⟨a1, m1, k1⟩ := ih
    refine ⟨?_, hm, ?_⟩ <;> unfold VM.step at e
    all_goals
      split at e
      · cases e
        first | exact a1 | exact k1
      · obtain ⟨v1, e1, a2, _, _, k2⟩ := collect_sep iv a1
        rw [e1, Res.ok_bind] at e
        obtain ⟨i, _, e2⟩ := Res.bind_eq_ok.mp e
        have s : SepR 0 P v1 (.ok w) := by
          rw [← e2]
          split
          · exact (exec_sep hF a2 _).strict
          · exact (Sep.refl a2).setErr _
        first
        | exact s.1
        | (intro x c px hx
           refine s.2 x c (hp x px) (k2 x c (k1 x c px hx) ?_)
           have step : ∀ r, (roots v).Mem r → (∀ y, Part H r y → Part H m.1 y ∨ Part H m.2 y) → ∀ y, Part H r y → Reach v.heap (roots v).Mem y := by
             intro r hr hsub y hy
             rcases hy with rfl | hy
             · exact .root hr
             · induction hy with
               | one el =>
                 obtain ⟨mm, t, g1, g2, e, he, hb⟩ := el
                 obtain ⟨m2, g3, g4⟩ := k1 _ _ (hsub _ (.inl rfl)) ⟨mm, g1, g2⟩
                 refine .step (.root hr) (points_iff.mpr ⟨m2, g3, ?_⟩)
                 rw [g4]
                 rcases hb with rfl | rfl
                 exacts [(tab_child he).1, (tab_child he).2]
               | more hb0 el ih =>
                 obtain ⟨mm, t, g1, g2, e, he, hb⟩ := el
                 obtain ⟨m2, g3, g4⟩ := k1 _ _ (hsub _ (.inr hb0)) ⟨mm, g1, g2⟩
                 refine .step ih (points_iff.mpr ⟨m2, g3, ?_⟩)
                 rw [g4]
                 rcases hb with rfl | rfl
                 exacts [(tab_child he).1, (tab_child he).2]
           have mem : (roots v).Mem m.1 ∧ (roots v).Mem m.2 :=
             ⟨.inr (.inr (.inr (.inr (.inr (.inl ⟨m, m1, .inl rfl⟩))))), .inr (.inr (.inr (.inr (.inr (.inl ⟨m, m1, .inr rfl⟩)))))⟩
           rcases px with px | px
           · exact step _ mem.1 (fun _ h => .inl h) x px
           · exact step _ mem.2 (fun _ h => .inr h) x px)
  | @act v w a _ e hm ih =>
    obtain ⟨a1, _, k1⟩ := ih
    have s := act_sep (E := E) hF a1 a
    rw [e] at s
    exact ⟨s.1, hm, fun x c px hx => s.2 x c (hp x px) (k1 x c px hx)⟩

end Buzz.VM
