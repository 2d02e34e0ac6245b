import Verif.StigStory

/-
`stigmergy.create` on the machine.
-/
namespace Buzz.VM

open Buzz.F32 Buzz.Msg Buzz.Heap Buzz.Props Buzz.HeapWire Buzz.OutMsg Buzz.Vstig

variable {me : Nat} {s : Vstig.St Unit Obj Obj} {kd : Kind} {E : Env}

theorem get_mem {sc : Bytes → Bytes → Int} {S : Obj → Prop} (H : Table.Homog sc S) {t : Table.Tbl (Nat × Nat)} (w : Dict.WF Table.hashN Table.eqd t) (hk : Table.Keys S t)
    {k : Obj} {y : Nat × Nat} (h : (k, y) ∈ Dict.entries t) : Table.get sc t k = .ok (some y) := by
  rw [Table.get_spec H w hk (hk _ h)]
  have u := Dict.entries_uniq Table.eqd_lawful w
  cases hf : (Dict.entries t).find? (fun e => Table.eqd k e.1) with
  | none =>
    have := List.find?_eq_none.mp hf _ h
    simp [Table.eqd] at this
  | some e =>
    have h1 := List.find?_some hf
    have h2 := List.mem_of_find?_eq_some hf
    simp only [Table.eqd, decide_eq_true_eq] at h1
    have : e = (k, y) := by
      by_contra hne
      have : Std.Symm (fun a b : Obj × (Nat × Nat) => Table.eqd a.1 b.1 = false) := ⟨fun a b hab => by
        simp only [Table.eqd, decide_eq_false_iff_not] at hab ⊢
        exact fun e => hab e.symm⟩
      have := u.forall h2 h hne
      simp [Table.eqd, h1] at this
    rw [this]
    rfl

/-- A value as a field of a table: a closure is copied, and the table is the first of its symbols (buzzvm.c 1290-1300). -/
def asField (ta : Nat) : Cell → Cell
  | .clo n r l => .clo n r (ta :: l.tail)
  | c => c

theorem new_fresh {h : Heap} (i : Heap.Inv h) (c0 c : Cell) : ¬ Holds h (newobj h c0).2 c := by
  rintro ⟨m, g, _⟩
  have := i.brk _ (FMap.mem_of_get g)
  exact absurd this (Nat.lt_irrefl _)

/-- A new field. -/
theorem tput_new {S : Obj → Prop} (H : Table.Homog E.sc S) {u : VM} (i : VInv u) {va ka ta : Nat} {st : List Nat} {t : Table.Tbl (Nat × Nat)} {vc : Cell} {k : Obj}
    (hst : u.stack = va :: ka :: ta :: st) (hv : Holds u.heap va vc) (hk : Holds u.heap ka (.atom k)) (ht : Holds u.heap ta (.tab t)) (wf : Dict.WF Table.hashN Table.eqd t)
    (ks : Table.Keys S t) (sk : S k) (ik : isKey k = true) (hn : vc ≠ .atom .nil) (hvt : va ≠ ta) :
    ∃ h' t' oa, tput E u = .ok { u with stack := st, heap := h' } ∧ VInv { u with stack := st, heap := h' } ∧ (∀ a c, a ≠ ta → Holds u.heap a c → Holds h' a c) ∧
      Holds h' ta (.tab t') ∧ Dict.WF Table.hashN Table.eqd t' ∧ Table.Keys S t' ∧ Holds h' oa (asField ta vc) ∧ oa ≠ ta ∧
      (Dict.entries t').Perm ((Dict.entries t).filter (fun e => !Table.eqd k e.1) ++ [(k, (ka, oa))]) ∧
      (∀ a c, Holds h' a c → a ≠ ta → a ≠ oa → Holds u.heap a c) ∧ (((∃ n r l, vc = .clo n r l) ∧ ∀ c, ¬ Holds u.heap oa c) ∨ ((∀ n r l, vc ≠ .clo n r l) ∧ oa = va)) := by
  have a1 : At u 0 vc := ⟨va, by rw [hst]; rfl, hv⟩
  have a2 : At u 1 (.atom k) := ⟨ka, by rw [hst]; rfl, hk⟩
  have a3 : At u 2 (.tab t) := ⟨ta, by rw [hst]; rfl, ht⟩
  have p1 : peekAddr u 1 = .ok va := by unfold peekAddr; rw [if_pos (by omega), hst]; rfl
  have p2 : peekAddr u 2 = .ok ka := by unfold peekAddr; rw [if_pos (by omega), hst]; rfl
  have p3 : peekAddr u 3 = .ok ta := by unfold peekAddr; rw [if_pos (by omega), hst]; rfl
  obtain ⟨_, _, _, _, c1, _⟩ := At.peekCell a1
  obtain ⟨_, _, _, _, _, c2⟩ := At.peekCell a2
  obtain ⟨_, _, _, _, c3, _⟩ := At.peekCell a3
  have c1 : peekCell u 1 = .ok vc := c1
  have c2 : peek u 2 = .ok k := c2
  have c3 : peekCell u 3 = .ok (.tab t) := c3
  have pop : popN u 3 = { u with stack := st } := by unfold popN; rw [hst]; rfl
  have fin : ∀ h', tput E u = .ok { u with stack := st, heap := h' } → VInv { u with stack := st, heap := h' } := by
    intro h' e
    have := tput_out (E := E) (F := fun _ _ => .ub) i
    rw [e] at this
    exact this.1
  have start : tput E u = (match (generalizing := false) vc with
        | .atom .nil => do
          let t' ← Table.remove E.sc t k
          pure { u with stack := st, heap := write u.heap ta (.tab t') }
        | .clo n r l => do
          let t' ← Table.set E.sc t k (ka, (newobj u.heap (.clo n r (ta :: l.tail))).2)
          pure { u with stack := st, heap := write (newobj u.heap (.clo n r (ta :: l.tail))).1 ta (.tab t') }
        | _ => do
          let t' ← Table.set E.sc t k (ka, va)
          pure { u with stack := st, heap := write u.heap ta (.tab t') }) := by
    unfold tput need
    rw [if_neg (by rw [hst]; simp only [List.length_cons]; omega), p3, Res.ok_bind, c3, Res.ok_bind]
    simp only
    rw [p1, Res.ok_bind, c1, Res.ok_bind, p2, Res.ok_bind, c2, Res.ok_bind]
    simp only [ik, if_true, pop]
    cases vc with
    | atom o => cases o <;> rfl
    | _ => rfl
  by_cases hc : ∃ n r l, vc = .clo n r l
  · obtain ⟨n, r, l, rfl⟩ := hc
    obtain ⟨t', e1, e2, e3, e4⟩ := Table.put_spec H wf ks sk (some (ka, (newobj u.heap (.clo n r (ta :: l.tail))).2))
    have e1 : Table.set E.sc t k (ka, (newobj u.heap (.clo n r (ta :: l.tail))).2) = .ok t' := e1
    have e : tput E u = .ok { u with stack := st, heap := write (newobj u.heap (.clo n r (ta :: l.tail))).1 ta (.tab t') } := by
      rw [start]
      simp only [e1, Res.ok_bind, Res.pure_eq]
    have k3 : Holds (newobj u.heap (.clo n r (ta :: l.tail))).1 ta (.tab t) := holds_old i.heap ht
    have hne : (newobj u.heap (.clo n r (ta :: l.tail))).2 ≠ ta := by
      intro h
      have h2 := holds_new i.heap (.clo n r (ta :: l.tail))
      rw [h] at h2
      cases holds_inj h2 k3
    exact ⟨_, t', _, e, fin _ e, fun a c ha hh => (holds_write k3).mpr (.inr ⟨ha, holds_old i.heap hh⟩), (holds_write k3).mpr (.inl ⟨rfl, rfl⟩), e2, e3,
      (holds_write k3).mpr (.inr ⟨hne, holds_new i.heap _⟩), hne, e4, fun a c hh h1 h2 => by
        rcases (holds_write k3).mp hh with ⟨hh, _⟩ | ⟨_, hh⟩
        · exact absurd hh h1
        · rcases holds_newobj hh with hh | ⟨hh, _⟩
          · exact hh
          · exact absurd hh h2, .inl ⟨⟨n, r, l, rfl⟩, fun c hh => new_fresh i.heap _ c hh⟩⟩
  · obtain ⟨t', e1, e2, e3, e4⟩ := Table.put_spec H wf ks sk (some (ka, va))
    have e1 : Table.set E.sc t k (ka, va) = .ok t' := e1
    have e : tput E u = .ok { u with stack := st, heap := write u.heap ta (.tab t') } := by
      rw [start]
      cases vc with
      | clo n r l => exact absurd ⟨n, r, l, rfl⟩ hc
      | tab tt => simp only [e1, Res.ok_bind, Res.pure_eq]
      | atom o => cases o <;> first | exact absurd rfl hn | simp only [e1, Res.ok_bind, Res.pure_eq]
    have hf : asField ta vc = vc := by
      cases vc with
      | clo n r l => exact absurd ⟨n, r, l, rfl⟩ hc
      | _ => rfl
    exact ⟨_, t', va, e, fin _ e, fun a c ha hh => (holds_write ht).mpr (.inr ⟨ha, hh⟩), (holds_write ht).mpr (.inl ⟨rfl, rfl⟩), e2, e3,
      by rw [hf]; exact (holds_write ht).mpr (.inr ⟨hvt, hv⟩), hvt, e4, fun a c hh h1 _ => by
        rcases (holds_write ht).mp hh with ⟨hh, _⟩ | ⟨_, hh⟩
        · exact absurd hh h1
        · exact hh, .inr ⟨fun n r l e => hc ⟨n, r, l, e⟩, rfl⟩⟩

/-- A table under construction, on top of the stack, with these fields. -/
structure Making (v u : VM) (ta : Nat) (st : List Nat) (t : Table.Tbl (Nat × Nat)) (fs : List (String × Cell)) : Prop where
  work : Work v u
  fresh : ∀ c, ¬ Holds v.heap ta c
  stack : u.stack = ta :: st
  tab : Holds u.heap ta (.tab t)
  wf : Dict.WF Table.hashN Table.eqd t
  keys : Table.Keys (KeyOk .strs u.strings) t
  fields : ∀ f ∈ fs, ∃ sid y, Strman.get u.strings sid = some (ascii f.1) ∧ (Obj.str sid (ascii f.1), y) ∈ Dict.entries t ∧ Holds u.heap y.2 f.2 ∧ y.2 ≠ ta

theorem KeyOk.grow {sm sm' : SM} (h : ∀ j x, Strman.get sm j = some x → Strman.get sm' j = some x) {k : Obj} (hk : KeyOk kd sm k) : KeyOk kd sm' k := by
  cases k with
  | str j x => exact ⟨hk.1, h _ _ hk.2.1, hk.2.2⟩
  | int v => exact hk
  | _ => exact hk

/-- One more field. -/
theorem Making.field (law : Obj.StrcmpLaw E.sc) {v u : VM} {ta : Nat} {st : List Nat} {t : Table.Tbl (Nat × Nat)} {fs : List (String × Cell)} (m : Making v u ta st t fs)
    {x : String} (hx : Obj.CStr (ascii x)) (hnew : ∀ f ∈ fs, ascii f.1 ≠ ascii x) (hz : u.strings.id2str.length ≤ 65533) {p : VM → VM} {vc : Cell} (hn : vc ≠ .atom .nil)
    (hp : ∀ u1, VInv u1 → ∃ h va, p u1 = { u1 with stack := va :: u1.stack, heap := h } ∧ VInv (p u1) ∧ (∀ a c, Holds u1.heap a c → Holds h a c) ∧ (∀ c, ¬ Holds u1.heap va c) ∧
      ∃ c, Holds h va c ∧ c ≠ .atom .nil ∧ asField ta c = asField ta vc) :
    ∃ u' t', stigField E x p u = .ok u' ∧ Making v u' ta st t' (fs ++ [(x, asField ta vc)]) ∧ u'.strings.id2str.length ≤ u.strings.id2str.length + 1 := by
  obtain ⟨sm', j, r1, r2, r3, r4, r5, r6⟩ := register_inv m.work.inv.strings hz (ascii x) true
  have i1 : VInv (VM.pushAddr u ta) := m.work.inv.pushAddr ⟨_, m.tab⟩
  have i2 : VInv (VM.push { VM.pushAddr u ta with strings := sm' } (.atom (.str j (ascii x)))) := (i1.setStrings r2 r6).push r4
  generalize hu2 : VM.push { VM.pushAddr u ta with strings := sm' } (.atom (.str j (ascii x))) = u2 at i2
  have st2 : u2.stack = u.heap.brk :: ta :: ta :: st := by
    rw [← hu2]
    show _ :: ta :: u.stack = _
    rw [m.stack]
    rfl
  have sg2 : u2.strings = sm' := by rw [← hu2]; rfl
  have old2 : ∀ a c, Holds u.heap a c → Holds u2.heap a c := fun a c h => by rw [← hu2]; exact holds_old m.work.inv.heap h
  have key2 : Holds u2.heap u.heap.brk (.atom (.str j (ascii x))) := by rw [← hu2]; exact holds_new m.work.inv.heap _
  obtain ⟨h3, va, e3, i3, old3, new3, c, hc, hcn, hcf⟩ := hp u2 i2
  rw [e3] at i3
  have hvt : va ≠ ta := by
    intro h
    rw [h] at new3
    exact new3 _ (old2 _ _ m.tab)
  have sk : KeyOk .strs u2.strings (.str j (ascii x)) := ⟨rfl, by rw [sg2]; exact r4, hx⟩
  have ks : Table.Keys (KeyOk .strs u2.strings) t := fun e he => (m.keys e he).grow (by rw [sg2]; exact r6)
  obtain ⟨h4, t', oa, f1, f2, f3, f4, f5, f6, f7, f8, f9, _, _⟩ := tput_new (key_homog law i2.strings .strs) i3 (t := t) (st := ta :: st) (va := va) (ka := u.heap.brk) (ta := ta)
    (by show va :: u2.stack = _; rw [st2]) hc (old3 _ _ key2) (old3 _ _ (old2 _ _ m.tab)) m.wf ks sk rfl hcn hvt
  refine ⟨{ u2 with stack := ta :: st, heap := h4 }, t', ?_, ⟨?_, m.fresh, rfl, f4, f5, f6, ?_⟩, ?_⟩
  · unfold stigField
    have d : dup u = VM.pushAddr u ta := by unfold dup; rw [m.stack]
    have pn : pushName x (VM.pushAddr u ta) = .ok u2 := by
      unfold pushName pushS
      rw [show Strman.register (VM.pushAddr u ta).strings (ascii x) true = .ok (sm', j) from r1]
      simp only [Res.ok_bind, Nat.mod_eq_of_lt r5, r4, Res.pure_eq]
      rw [hu2]
    rw [d, pn, Res.ok_bind, e3]
    exact f1
  · have keep : ∀ a c, Holds v.heap a c → Holds h4 a c := fun a c h => f3 a c (fun e => m.fresh c (e ▸ h)) (old3 _ _ (old2 _ _ (m.work.heap _ _ h)))
    have w := m.work
    subst hu2
    exact { w with heap := keep, inv := f2, strs := fun k y h => r6 k y (w.strs k y h) }
  · intro f hf
    rcases List.mem_append.mp hf with hf | hf
    · obtain ⟨sid, y, g1, g2, g3, g4⟩ := m.fields f hf
      refine ⟨sid, y, by show Strman.get u2.strings sid = _; rw [sg2]; exact r6 _ _ g1, ?_, f3 _ _ g4 (old3 _ _ (old2 _ _ g3)), g4⟩
      refine f9.mem_iff.mpr (List.mem_append_left _ (List.mem_filter.mpr ⟨g2, ?_⟩))
      have : Obj.str j (ascii x) ≠ .str sid (ascii f.1) := by
        intro h
        rw [Obj.str.injEq] at h
        exact hnew f hf h.2.symm
      simp [Table.eqd, this]
    · cases List.mem_singleton.mp hf
      refine ⟨j, _, by show Strman.get u2.strings j = _; rw [sg2]; exact r4, f9.mem_iff.mpr (List.mem_append_right _ (List.mem_singleton.mpr rfl)), ?_, f8⟩
      rw [← hcf]
      exact f7
  · show u2.strings.id2str.length ≤ _
    rw [sg2]
    exact r3

/-- Pushing a number. -/
theorem pushInt_field {ta : Nat} {v : Int} (hv : I32 v) (u : VM) (i : VInv u) : ∃ h va, pushInt u v = { u with stack := va :: u.stack, heap := h } ∧ VInv (pushInt u v) ∧
    (∀ a c, Holds u.heap a c → Holds h a c) ∧ (∀ c, ¬ Holds u.heap va c) ∧ ∃ c, Holds h va c ∧ c ≠ .atom .nil ∧ asField ta c = asField ta (.atom (.int v)) :=
  ⟨_, _, rfl, i.push (c := .atom (.int v)) hv, fun _ _ h => holds_old i.heap h, fun c => new_fresh i.heap _ c, _, holds_new i.heap _, by simp, rfl⟩

/-- Pushing a C function. -/
theorem pushC_field {ta : Nat} {r : Int} (hr : I32 r) (u : VM) (i : VInv u) : ∃ h va, pushC u r false = { u with stack := va :: u.stack, heap := h } ∧ VInv (pushC u r false) ∧
    (∀ a c, Holds u.heap a c → Holds h a c) ∧ (∀ c, ¬ Holds u.heap va c) ∧ ∃ c, Holds h va c ∧ c ≠ .atom .nil ∧ asField ta c = asField ta (.clo false r []) := by
  have i1 : VInv { u with heap := (newobj u.heap (.clo false r [])).1 } := i.newobj ⟨hr, by simp⟩
  have h1 : Holds (newobj (newobj u.heap (.clo false r [])).1 (.atom .nil)).1 (newobj u.heap (.clo false r [])).2 (.clo false r []) := holds_old i1.heap (holds_new i.heap _)
  refine ⟨_, _, rfl, i.pushC hr false, fun a c h => ?_, fun c => new_fresh i.heap _ c, _, (holds_write h1).mpr (.inl ⟨rfl, rfl⟩), by simp, rfl⟩
  refine (holds_write h1).mpr (.inr ⟨fun e => ?_, holds_old i1.heap (holds_old i.heap h)⟩)
  subst e
  exact new_fresh i.heap _ _ h

/-- The methods, one after the other. -/
theorem methods_make (law : Obj.StrcmpLaw E.sc) {base : Nat} (hb : base + 6 < 2147483648) : ∀ (l : List (String × Nat)) {v u : VM} {ta : Nat} {st : List Nat} {t : Table.Tbl (Nat × Nat)}
    {fs : List (String × Cell)}, Making v u ta st t fs → (∀ x ∈ l, Obj.CStr (ascii x.1) ∧ x.2 < 6) → (∀ f ∈ fs, ∀ x ∈ l, ascii f.1 ≠ ascii x.1) →
    l.Pairwise (fun a b => ascii a.1 ≠ ascii b.1) → u.strings.id2str.length + l.length ≤ 65534 →
    ∃ u' t', l.foldlM (fun vm x => stigField E x.1 (fun vm => pushC vm ((base + x.2 : Nat) : Int) false) vm) u = .ok u' ∧
      Making v u' ta st t' (fs ++ l.map (fun x => (x.1, .clo false ((base + x.2 : Nat) : Int) [ta]))) ∧ u'.strings.id2str.length ≤ u.strings.id2str.length + l.length
  | [], v, u, ta, st, t, fs, m, _, _, _, _ => ⟨u, t, rfl, by simpa using m, Nat.le_refl _⟩
  | x :: l, v, u, ta, st, t, fs, m, hc, hd, hp, hz => by
    rw [List.pairwise_cons] at hp
    rw [List.length_cons] at hz
    have hx := hc x (List.mem_cons_self ..)
    obtain ⟨u1, t1, e1, m1, z1⟩ := m.field law (E := E) (x := x.1) hx.1 (fun f hf => hd f hf x (List.mem_cons_self ..)) (by omega)
      (p := fun vm => pushC vm ((base + x.2 : Nat) : Int) false) (vc := .clo false ((base + x.2 : Nat) : Int) []) (by simp)
      (fun u1 i1 => pushC_field (by unfold I32; omega) u1 i1)
    obtain ⟨u2, t2, e2, m2, z2⟩ := methods_make law hb l m1 (fun y hy => hc y (List.mem_cons_of_mem _ hy)) (by
      intro f hf y hy
      rcases List.mem_append.mp hf with hf | hf
      · exact hd f hf y (List.mem_cons_of_mem _ hy)
      · cases List.mem_singleton.mp hf
        exact hp.1 y hy) hp.2 (by omega)
    refine ⟨u2, t2, ?_, ?_, by rw [List.length_cons]; omega⟩
    · rw [List.foldlM_cons, e1, Res.ok_bind, e2]
    · rw [List.append_assoc] at m2
      exact m2

/-- The field of a table. -/
def Field (E : Env) (vm : VM) (ta : Nat) (x : String) (c : Cell) : Prop :=
  ∃ t sid y, Holds vm.heap ta (.tab t) ∧ Strman.get vm.strings sid = some (ascii x) ∧ Table.get E.sc t (.str sid (ascii x)) = .ok (some y) ∧ Holds vm.heap y.2 c

/-- The field `x` of the table `tt` is the C function `f`, with the table as its object. -/
def MethodIs (E : Env) (F : CFuns) (w : VM) (tt : Nat) (x : String) (f : VM → Res VM) : Prop := ∃ n : Nat, Field E w tt x (.clo false n [tt]) ∧ ∀ vm, F n vm = f vm

/-- The machine after `stigmergy.create`: the table with the number and the methods is the result. -/
structure Created (E : Env) (base id : Nat) (vm w : VM) : Prop where
  ready : w.state = .ready
  ex : ∃ f p st a q, vm.frames = f :: w.frames ∧ vm.rest = (p :: st) :: w.rest ∧ Holds vm.heap p (.atom (.int q)) ∧ w.pc = q ∧ w.stack = a :: st ∧
    HasId E w a id ∧ ∀ x ∈ stigMethods.zipIdx, Field E w a x.1 (.clo false ((base + x.2 : Nat) : Int) [a])
  gsyms : w.gsyms = vm.gsyms
  code : w.code = vm.code
  nfuns : w.nfuns = max vm.nfuns (base + 6)
  listeners : w.other.listeners = vm.other.listeners
  bcasts : w.other.bcasts = vm.other.bcasts
  heap : ∀ a c, Holds vm.heap a c → Holds w.heap a c
  strs : ∀ j s, Strman.get vm.strings j = some s → Strman.get w.strings j = some s
  inv : VInv w

theorem new_is (S : Obj → Prop) (h : Heap) : StigIs S h ⟨Table.new, none, none⟩ Vs.new where
  plain := ⟨rfl, rfl⟩
  plain' := ⟨rfl, rfl⟩
  wf := Dict.new_wf (by decide)
  keys := by
    intro e he
    rw [show Dict.entries (Table.new : Table.Tbl VElem) = [] from Dict.entries_new _] at he
    cases he
  atoms := by
    intro e he
    rw [show Dict.entries (Table.new : Table.Tbl VElem) = [] from Dict.entries_new _] at he
    cases he
  same := by
    rw [show Dict.entries (Table.new : Table.Tbl VElem) = [] from Dict.entries_new _]
    exact List.Perm.nil

theorem create_sim (law : Obj.StrcmpLaw E.sc) {base : Nat} (hb : base + 6 < 2147483648) {vm : VM} {obj a id : Nat} (e : Method vm obj [a]) (ha : Holds vm.heap a (.atom (.int id)))
    (hid : id < 65536) (hz : vm.strings.id2str.length + 7 ≤ 65534) (m : Shows kd me vm s) :
    ∃ w, stigCreate E base vm = .ok w ∧ Created E base id vm w ∧ Shows kd me w (Vstig.create s id) := by
  obtain ⟨l1, w1, p1⟩ := e.entry.load (k := 0) (Work.refl e.inv) rfl ha
  have p1 : peek (pushAddr vm a) 1 = .ok (.int id) := p1
  let v : VM := { vm with nfuns := max vm.nfuns (base + 6),
                          other := { vm.other with vstigs := FMap.set (FMap.del vm.other.vstigs id) id ⟨Table.new, none, none⟩ } }
  have ok : OtherOk vm.heap v.other := by
    refine ⟨?_, e.inv.other.listeners, e.inv.other.bcasts, e.inv.other.puts, e.inv.other.queries⟩
    intro x hx
    rcases FMap.mem_set.mp hx with ⟨hx, _⟩ | hx
    · exact e.inv.other.vstigs x (FMap.mem_del.mp hx).1
    · subst hx
      refine ⟨fun b hb => (by cases hb), fun b hb => (by cases hb), fun y hy => ?_⟩
      rw [show Dict.entries (Table.new : Table.Tbl VElem) = [] from Dict.entries_new _] at hy
      cases hy
  have iv : VInv v := { e.inv with other := ok }
  have ev : Entry v [a] := by
    obtain ⟨f, fs, p, st, r, q, h⟩ := e.ex
    exact ⟨iv, e.ready, f, fs, obj, p, st, r, q, h⟩
  have mv : Shows kd me v (Vstig.create s id) := by
    refine ⟨m.me, m.inv, m.only, ?_, m.puts, m.queries, m.msgs⟩
    intro id'
    show StigsAgree _ vm.heap (FMap.get (FMap.set (FMap.del vm.other.vstigs id) id _) id') (FMap.get (FMap.set (FMap.del s.vstigs id) id Vs.new) id')
    rw [FMap.get_set, FMap.get_set]
    split
    · exact new_is _ _
    · rename_i hne
      rw [FMap.get_del, FMap.get_del, if_neg hne, if_neg hne]
      exact m.stigs id'
  have m0 : Making v (pushT v) (newobj vm.heap (.tab Table.new)).2 vm.stack Table.new [] := by
    have tabOk : CellOk v.heap v.strings (.tab Table.new) := by
      refine ⟨by decide, ?_⟩
      rw [show Dict.entries (Table.new : Table.Tbl (Nat × Nat)) = [] from Dict.entries_new _]
      intro e he
      cases he
    refine ⟨((Work.refl iv).push tabOk).1, fun c => new_fresh iv.heap _ c, rfl, holds_new iv.heap _, Dict.new_wf (by decide), ?_, by simp⟩
    intro x hx
    rw [show Dict.entries (Table.new : Table.Tbl (Nat × Nat)) = [] from Dict.entries_new _] at hx
    cases hx
  obtain ⟨u1, t1, e1, m1, z1⟩ := m0.field law (E := E) (x := "id") (by decide) (by simp) (show vm.strings.id2str.length ≤ 65533 by omega)
    (p := fun vm => pushInt vm id) (vc := .atom (.int id)) (by simp) (fun u1 i1 => pushInt_field (by unfold I32; omega) u1 i1)
  have z1 : u1.strings.id2str.length ≤ vm.strings.id2str.length + 1 := z1
  obtain ⟨u2, t2, e2, m2, _⟩ := methods_make law hb stigMethods.zipIdx m1 (by decide) (by
    intro f hf
    cases List.mem_singleton.mp hf
    show ∀ x ∈ stigMethods.zipIdx, ascii "id" ≠ ascii x.1
    decide) (by decide) (by
    have : stigMethods.zipIdx.length = 6 := rfl
    omega)
  obtain ⟨w, g1, g2⟩ := ret1_gives ev m2.work ⟨_, by rw [m2.stack]; rfl, m2.tab⟩
  obtain ⟨f, fs, p, st, r, q, hf, hs, hr, hq⟩ := e.ex
  have hu := ret1_eq (m2.work.frames.trans hf) (m2.work.rest.trans hr) (m2.work.heap _ _ hq) m2.stack
  have hw : w = _ := Res.ok.inj (g1.symm.trans hu)
  have fld : ∀ x ∈ stigMethods.zipIdx, Field E w (newobj vm.heap (.tab Table.new)).2 x.1 (.clo false ((base + x.2 : Nat) : Int) [(newobj vm.heap (.tab Table.new)).2]) := by
    intro x hx
    obtain ⟨sid, y, y1, y2, y3, _⟩ := m2.fields (x.1, .clo false ((base + x.2 : Nat) : Int) [(newobj vm.heap (.tab Table.new)).2])
      (List.mem_append_right _ (List.mem_map.mpr ⟨x, hx, rfl⟩))
    rw [hw]
    exact ⟨t2, sid, y, m2.tab, y1, get_mem (key_homog law m2.work.inv.strings .strs) m2.wf m2.keys y2, y3⟩
  have hasId : HasId E w (newobj vm.heap (.tab Table.new)).2 id := by
    obtain ⟨sid, y, y1, y2, y3, _⟩ := m2.fields ("id", .atom (.int id)) (List.mem_append_left _ (List.mem_singleton.mpr rfl))
    rw [hw]
    exact ⟨t2, sid, y, m2.tab, y1, get_mem (key_homog law m2.work.inv.strings .strs) m2.wf m2.keys y2, y3, hid⟩
  refine ⟨w, ?_, ?_, ?_⟩
  · unfold stigCreate
    rw [e.entry.lnum, Res.ok_bind, if_neg (by simp), l1, Res.ok_bind, p1, Res.ok_bind]
    simp only
    have hmod : ((id : Int) % 65536).toNat = id := by omega
    rw [hmod, show pop (pushAddr vm a) = vm from rfl]
    rw [show stigField E "id" (fun vm => pushInt vm id) (pushT v) = .ok u1 from e1, Res.ok_bind, e2, Res.ok_bind, g1]
  · refine ⟨g2.ready, ⟨f, p, st, _, q, ?_, ?_, hq, ?_, ?_, hasId, fld⟩, g2.gsyms, g2.code, g2.nfuns, by rw [g2.other], by rw [g2.other], g2.heap, g2.strs, g2.inv⟩
    · rw [hw]; exact hf
    · rw [hw]; exact hr
    · rw [hw]; rfl
    · rw [hw]; rfl
  · have q : Quiet v w := ⟨g2.inv, by rw [g2.other], by rw [g2.other], by rw [g2.other], fun b _ y hy => g2.heap _ _ hy⟩
    exact q.shows mv

end Buzz.VM
