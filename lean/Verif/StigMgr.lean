import Verif.StigEach

/-
The conflict managers of a virtual stigmergy (src/buzz/buzzvstig.c 406-455, 476-494) with real calls of closures.  `F` and `m` are as in `Verif/HofRun.lean`.
-/
namespace Buzz.VM

open Buzz.F32 Buzz.Msg Buzz.Heap Buzz.Props Buzz.HeapWire

/-- The table made of an entry (`add_field`, buzzvstig.c 22-26, 418-421). -/
def stigEntryTable (E : Env) (e : VElem) (vm : VM) : Res VM := do
  let vm ← stigField E "robot" (fun vm => pushInt vm e.robot) (pushT vm)
  let vm ← stigField E "data" (fun vm => pushAddr vm e.data) vm
  stigField E "timestamp" (fun vm => pushInt vm e.ts) vm

/-- What is made of the result of a conflict manager (buzzvstig.c 430-453); a new entry has the timestamp of the local one. -/
def stigVerdict (E : Env) (l v : VElem) (vm : VM) : Res (VM × Option VElem) := do
  let c ← peekCell vm 1
  match c with
  | .tab _ => do
    let ra ← peekAddr vm 1
    let vm ← pushName "robot" vm
    let vm ← tget E vm
    let o ← peek vm 1
    match o with
    | .int n => do
      let vm ← pushName "data" (pushAddr (pop vm) ra)
      let vm ← tget E vm
      let d ← peekAddr vm 1
      pure (pop vm, some ⟨v.key, d, l.ts, (n % 65536).toNat⟩)
    | _ => pure (vm, none)
  | _ => pure (vm, none)

/-- `buzzvstig_onconflict_call` (buzzvstig.c 406-454) with the manager `ca`, a local entry `l` and a received one `v`. -/
def stigMgr (E : Env) (F : CFuns) (m ca : Nat) (l v : VElem) (vm : VM) : Res (VM × Option VElem) := do
  let vm ← stigEntryTable E l (pushAddr (pushAddr vm ca) v.key)
  let vm ← stigEntryTable E v vm
  let vm ← closureCall E F m 3 vm
  stigVerdict E l v vm

/-- `buzzvstig_onconflictlost_call` (buzzvstig.c 476-494) with the manager `ca` and the entry that was lost: the result of the call stays on the stack. -/
def stigLost (E : Env) (F : CFuns) (m ca : Nat) (e : VElem) (vm : VM) : Res VM := do
  let vm ← stigEntryTable E e (pushAddr (pushAddr vm ca) e.key)
  closureCall E F m 2 vm

/-! ### The table of an entry -/

/-- The object of a field of a table. -/
def FieldAt (E : Env) (vm : VM) (ta : Nat) (x : String) (a : Nat) : Prop :=
  ∃ t sid y, Holds vm.heap ta (.tab t) ∧ Strman.get vm.strings sid = some (ascii x) ∧ Table.get E.sc t (.str sid (ascii x)) = .ok (some y) ∧ y.2 = a

/-- A table without this field. -/
def NoField (E : Env) (vm : VM) (ta : Nat) (x : String) : Prop :=
  ∃ t sid, Holds vm.heap ta (.tab t) ∧ Strman.get vm.strings sid = some (ascii x) ∧ Table.get E.sc t (.str sid (ascii x)) = .ok none

/-- A table under construction on top of the stack. -/
structure FMaking (v u : VM) (ta : Nat) (t : Table.Tbl (Nat × Nat)) (fs : List (String × Nat)) : Prop where
  prep : Prepared v u
  stack : u.stack = ta :: v.stack
  fresh : ∀ c, ¬ Holds v.heap ta c
  tab : Holds u.heap ta (.tab t)
  wf : Dict.WF Table.hashN Table.eqd t
  keys : Table.Keys (KeyOk .strs u.strings) t
  fields : ∀ f ∈ fs, ∃ sid y, Strman.get u.strings sid = some (ascii f.1) ∧ (Obj.str sid (ascii f.1), y) ∈ Dict.entries t ∧ y.2 = f.2
  only : ∀ e ∈ Dict.entries t, ∃ f ∈ fs, ∃ sid, e.1 = .str sid (ascii f.1)

variable {E : Env} {v u : VM} {ta : Nat} {t : Table.Tbl (Nat × Nat)} {fs : List (String × Nat)}

theorem FMaking.start (i : VInv v) : FMaking v (pushT v) v.heap.brk Table.new [] where
  prep := ⟨rfl, .inl rfl, fun a c h => holds_old i.heap h, fun _ _ h => h, i.push (new_ok _ _)⟩
  stack := rfl
  fresh c := new_fresh i.heap (.tab Table.new) c
  tab := holds_new i.heap _
  wf := Dict.new_wf (by decide)
  keys e he := by
    rw [show Dict.entries (Table.new : Table.Tbl (Nat × Nat)) = [] from Dict.entries_new _] at he
    cases he
  fields f hf := by cases hf
  only e he := by
    rw [show Dict.entries (Table.new : Table.Tbl (Nat × Nat)) = [] from Dict.entries_new _] at he
    cases he

/-- The name of a field and a value on the stack. -/
theorem FMaking.ready (m : FMaking v u ta t fs) (x : String) (hz : u.strings.id2str.length ≤ 65533) :
    ∃ u2 j, pushName x (dup u) = .ok u2 ∧ Prepared u u2 ∧ u2.stack = u.heap.brk :: ta :: ta :: v.stack ∧ Holds u2.heap u.heap.brk (.atom (.str j (ascii x))) ∧
      Strman.get u2.strings j = some (ascii x) ∧ u2.strings.id2str.length ≤ u.strings.id2str.length + 1 ∧ u.heap.brk ≠ ta := by
  have i1 : VInv (pushAddr u ta) := m.prep.inv.pushAddr ⟨_, m.tab⟩
  obtain ⟨sm, j, e1, p1, g1, z1, _⟩ := name_prep i1 x hz
  have d : dup u = pushAddr u ta := by unfold dup; rw [m.stack]
  refine ⟨_, j, by rw [d]; exact e1, ((Prepared.refl m.prep.inv).push ⟨_, m.tab⟩).trans p1, ?_, holds_new m.prep.inv.heap _, g1, z1, fun h => new_fresh m.prep.inv.heap (.atom .nil) (.tab t) (by
    show Holds u.heap u.heap.brk _
    rw [h]; exact m.tab)⟩
  show _ :: ta :: u.stack = _
  rw [m.stack]
  rfl

/-- A field with a value. -/
theorem FMaking.field (law : Obj.StrcmpLaw E.sc) (m : FMaking v u ta t fs) {x : String} (hx : Obj.CStr (ascii x)) (hnew : ∀ f ∈ fs, ascii f.1 ≠ ascii x)
    (hz : u.strings.id2str.length ≤ 65533) {p : VM → VM} {vc : Cell} {R : Nat → Prop} (hn : vc ≠ .atom .nil)
    (hp : ∀ u1, Prepared u u1 → ∃ h va, p u1 = { u1 with stack := va :: u1.stack, heap := h } ∧ VInv (p u1) ∧ (∀ a c, Holds u1.heap a c → Holds h a c) ∧ Holds h va vc ∧ va ≠ ta ∧ R va) :
    ∃ u' t' oa, stigField E x p u = .ok u' ∧ FMaking v u' ta t' (fs ++ [(x, oa)]) ∧ (∀ a c, a ≠ ta → Holds u.heap a c → Holds u'.heap a c) ∧ Holds u'.heap oa (asField ta vc) ∧ oa ≠ ta ∧
      ((∀ n r l, vc ≠ .clo n r l) → R oa) ∧ u'.strings.id2str.length ≤ u.strings.id2str.length + 1 ∧ ∀ j s, Strman.get u.strings j = some s → Strman.get u'.strings j = some s := by
  obtain ⟨u2, j, e1, p1, s1, k1, g1, z1, _⟩ := m.ready x hz
  obtain ⟨h3, va, e3, i3, old3, hv3, hvt, hR⟩ := hp u2 p1
  rw [e3] at i3
  have ks : Table.Keys (KeyOk .strs u2.strings) t := fun e he => (m.keys e he).grow p1.strs
  obtain ⟨h4, t', oa, f1, f2, f3, f4, f5, f6, f7, f8, f9, _, f11⟩ := tput_new (key_homog law p1.inv.strings .strs) i3 (t := t) (st := ta :: v.stack) (va := va) (ka := u.heap.brk) (ta := ta)
    (by show va :: u2.stack = _; rw [s1]) hv3 (old3 _ _ k1) (old3 _ _ (p1.heap _ _ m.tab)) m.wf ks (show KeyOk .strs u2.strings (.str j (ascii x)) from ⟨rfl, g1, hx⟩) rfl hn hvt
  have keep : ∀ a c, a ≠ ta → Holds u.heap a c → Holds h4 a c := fun a c ha h => f3 a c ha (old3 _ _ (p1.heap _ _ h))
  refine ⟨{ u2 with stack := ta :: v.stack, heap := h4 }, t', oa, ?_, ⟨⟨?_, ?_, ?_, ?_, f2⟩, rfl, m.fresh, f4, f5, f6, ?_, ?_⟩, keep, f7, f8, ?_, z1, p1.strs⟩
  · unfold stigField
    rw [e1, Res.ok_bind, e3]
    exact f1
  · have q := m.prep.trans p1
    rw [q.eq]
  · exact (m.prep.trans p1).nfuns
  · exact fun a c h => keep a c (fun e => m.fresh c (e ▸ h)) (m.prep.heap _ _ h)
  · exact (m.prep.trans p1).strs
  · intro f hf
    rcases List.mem_append.mp hf with hf | hf
    · obtain ⟨sid, y, q1, q2, q3⟩ := m.fields f hf
      refine ⟨sid, y, p1.strs _ _ q1, f9.mem_iff.mpr (List.mem_append_left _ (List.mem_filter.mpr ⟨q2, ?_⟩)), q3⟩
      have : Obj.str j (ascii x) ≠ .str sid (ascii f.1) := by
        intro h
        rw [Obj.str.injEq] at h
        exact hnew f hf h.2.symm
      simp [Table.eqd, this]
    · cases List.mem_singleton.mp hf
      exact ⟨j, _, g1, f9.mem_iff.mpr (List.mem_append_right _ (List.mem_singleton.mpr rfl)), rfl⟩
  · intro e he
    rcases List.mem_append.mp (f9.mem_iff.mp he) with he | he
    · obtain ⟨f, hf, h⟩ := m.only e (List.mem_filter.mp he).1
      exact ⟨f, List.mem_append_left _ hf, h⟩
    · cases List.mem_singleton.mp he
      exact ⟨(x, oa), by simp, j, rfl⟩
  · intro h
    rcases f11 with ⟨⟨n, r, l, e⟩, _⟩ | ⟨_, e⟩
    · exact absurd e (h n r l)
    · rw [e]
      exact hR

/-- A field with nil as its value: nothing is added. -/
theorem FMaking.nofield (law : Obj.StrcmpLaw E.sc) (m : FMaking v u ta t fs) {x : String} (hx : Obj.CStr (ascii x)) (hnew : ∀ f ∈ fs, ascii f.1 ≠ ascii x)
    (hz : u.strings.id2str.length ≤ 65533) {va : Nat} (hv : Holds u.heap va (.atom .nil)) :
    ∃ u' t' j, stigField E x (fun vm => pushAddr vm va) u = .ok u' ∧ FMaking v u' ta t' fs ∧ (∀ a c, a ≠ ta → Holds u.heap a c → Holds u'.heap a c) ∧
      Strman.get u'.strings j = some (ascii x) ∧ u'.strings.id2str.length ≤ u.strings.id2str.length + 1 := by
  obtain ⟨u2, j, e1, p1, s1, k1, g1, z1, _⟩ := m.ready x hz
  have i3 : VInv (pushAddr u2 va) := p1.inv.pushAddr ⟨_, p1.heap _ _ hv⟩
  have ks : Table.Keys (KeyOk .strs u2.strings) t := fun e he => (m.keys e he).grow p1.strs
  obtain ⟨t', q1, q2, q3, q4⟩ := Table.put_spec (key_homog law p1.inv.strings .strs) m.wf ks (show KeyOk .strs u2.strings (.str j (ascii x)) from ⟨rfl, g1, hx⟩) none
  have q1 : Table.remove E.sc t (.str j (ascii x)) = .ok t' := q1
  have ht2 := p1.heap _ _ m.tab
  have e : tput E (pushAddr u2 va) = .ok { u2 with stack := ta :: v.stack, heap := write u2.heap ta (.tab t') } := by
    have a1 : At (pushAddr u2 va) 0 (.atom .nil) := ⟨va, rfl, p1.heap _ _ hv⟩
    have a2 : At (pushAddr u2 va) 1 (.atom (.str j (ascii x))) := ⟨u.heap.brk, by show u2.stack[0]? = _; rw [s1]; rfl, k1⟩
    have a3 : At (pushAddr u2 va) 2 (.tab t) := ⟨ta, by show u2.stack[1]? = _; rw [s1]; rfl, ht2⟩
    obtain ⟨x1, y1, _, p1', c1, _⟩ := At.peekCell a1
    obtain ⟨x2, y2, _, p2', _, c2⟩ := At.peekCell a2
    obtain ⟨x3, y3, _, p3', c3, _⟩ := At.peekCell a3
    have c1 : peekCell (pushAddr u2 va) 1 = .ok (.atom .nil) := c1
    have c2 : peek (pushAddr u2 va) 2 = .ok (.str j (ascii x)) := c2
    have c3 : peekCell (pushAddr u2 va) 3 = .ok (.tab t) := c3
    have r1 : peekAddr (pushAddr u2 va) 1 = .ok va := rfl
    have r2 : peekAddr (pushAddr u2 va) 2 = .ok u.heap.brk := by unfold peekAddr; rw [if_pos (by omega)]; show (match u2.stack[0]? with | some a => _ | none => _) = _; rw [s1]; rfl
    have r3 : peekAddr (pushAddr u2 va) 3 = .ok ta := by unfold peekAddr; rw [if_pos (by omega)]; show (match u2.stack[1]? with | some a => _ | none => _) = _; rw [s1]; rfl
    have pop : popN (pushAddr u2 va) 3 = { u2 with stack := ta :: v.stack } := by unfold popN; show ({ u2 with stack := u2.stack.drop 2 } : VM) = _; rw [s1]; rfl
    unfold tput need
    rw [if_neg (by show ¬ (((va :: u2.stack).length : Int) - 3 < 0); rw [s1]; simp only [List.length_cons]; omega), r3, Res.ok_bind, c3, Res.ok_bind]
    simp only
    rw [r1, Res.ok_bind, c1, Res.ok_bind, r2, Res.ok_bind, c2, Res.ok_bind]
    simp only [isKey, if_true, pop]
    show Table.remove E.sc t (.str j (ascii x)) >>= _ = _
    rw [q1]
    rfl
  have fin := tput_out (E := E) (F := fun _ _ => .ub) i3
  rw [e] at fin
  have keep : ∀ a c, a ≠ ta → Holds u.heap a c → Holds (write u2.heap ta (.tab t')) a c := fun a c ha h => (holds_write ht2).mpr (.inr ⟨ha, p1.heap _ _ h⟩)
  have mem : ∀ e, e ∈ Dict.entries t' → e ∈ Dict.entries t := fun e he => by
    have := q4.mem_iff.mp he
    rw [Option.map_none, Option.toList_none, List.append_nil] at this
    exact (List.mem_filter.mp this).1
  refine ⟨{ u2 with stack := ta :: v.stack, heap := write u2.heap ta (.tab t') }, t', j, ?_, ⟨⟨?_, ?_, ?_, ?_, fin.1⟩, rfl, m.fresh, (holds_write ht2).mpr (.inl ⟨rfl, rfl⟩), q2, q3, ?_, ?_⟩, keep, g1, z1⟩
  · unfold stigField
    rw [e1, Res.ok_bind]
    exact e
  · have q := m.prep.trans p1
    rw [q.eq]
  · exact (m.prep.trans p1).nfuns
  · exact fun a c h => keep a c (fun e => m.fresh c (e ▸ h)) (m.prep.heap _ _ h)
  · exact (m.prep.trans p1).strs
  · intro f hf
    obtain ⟨sid, y, q1, q2, q3⟩ := m.fields f hf
    refine ⟨sid, y, p1.strs _ _ q1, q4.mem_iff.mpr (List.mem_append_left _ (List.mem_filter.mpr ⟨q2, ?_⟩)), q3⟩
    have : Obj.str j (ascii x) ≠ .str sid (ascii f.1) := by
      intro h
      rw [Obj.str.injEq] at h
      exact hnew f hf h.2.symm
    simp [Table.eqd, this]
  · exact fun e he => m.only e (mem e he)

theorem FMaking.at (law : Obj.StrcmpLaw E.sc) (m : FMaking v u ta t fs) {x : String} {a : Nat} (h : (x, a) ∈ fs) : FieldAt E u ta x a := by
  obtain ⟨sid, y, g1, g2, g3⟩ := m.fields _ h
  exact ⟨t, sid, y, m.tab, g1, get_mem (key_homog law m.prep.inv.strings .strs) m.wf m.keys g2, g3⟩

theorem FMaking.none (law : Obj.StrcmpLaw E.sc) (m : FMaking v u ta t fs) {x : String} (hx : Obj.CStr (ascii x)) (hnew : ∀ f ∈ fs, ascii f.1 ≠ ascii x) {j : Nat}
    (hj : Strman.get u.strings j = some (ascii x)) : NoField E u ta x := by
  refine ⟨t, j, m.tab, hj, ?_⟩
  rw [Table.get_spec (key_homog law m.prep.inv.strings .strs) m.wf m.keys (show KeyOk .strs u.strings (.str j (ascii x)) from ⟨rfl, hj, hx⟩)]
  rw [List.find?_eq_none.mpr]
  · rfl
  · intro e he
    obtain ⟨f, hf, sid, h⟩ := m.only e he
    have : Obj.str j (ascii x) ≠ .str sid (ascii f.1) := by
      intro h
      rw [Obj.str.injEq] at h
      exact hnew f hf h.2.symm
    rw [h]
    simp [Table.eqd, this]

/-- A table with the fields of the entry `e`, whose value has the content `d`: nil is no field, and a closure is one of the table. -/
structure EntryTable (E : Env) (u : VM) (ta : Nat) (e : VElem) (d : Cell) : Prop where
  robot : ∃ a, FieldAt E u ta "robot" a ∧ Holds u.heap a (.atom (.int e.robot))
  time : ∃ a, FieldAt E u ta "timestamp" a ∧ Holds u.heap a (.atom (.int e.ts))
  data : d ≠ .atom .nil → (∀ n r l, d ≠ .clo n r l) → FieldAt E u ta "data" e.data
  clos : ∀ n r l, d = .clo n r l → ∃ a, FieldAt E u ta "data" a ∧ Holds u.heap a (.clo n r (ta :: l.tail))
  nil : d = .atom .nil → NoField E u ta "data"

theorem FieldAt.grow {w : VM} {x : String} {a : Nat} (f : FieldAt E u ta x a) (hh : ∀ a c, Holds u.heap a c → Holds w.heap a c)
    (hs : ∀ j s, Strman.get u.strings j = some s → Strman.get w.strings j = some s) : FieldAt E w ta x a := by
  obtain ⟨t, sid, y, h1, h2, h3, h4⟩ := f
  exact ⟨t, sid, y, hh _ _ h1, hs _ _ h2, h3, h4⟩

theorem NoField.grow {w : VM} {x : String} (f : NoField E u ta x) (hh : ∀ a c, Holds u.heap a c → Holds w.heap a c)
    (hs : ∀ j s, Strman.get u.strings j = some s → Strman.get w.strings j = some s) : NoField E w ta x := by
  obtain ⟨t, sid, h1, h2, h3⟩ := f
  exact ⟨t, sid, hh _ _ h1, hs _ _ h2, h3⟩

theorem EntryTable.grow {w : VM} {e : VElem} {d : Cell} (f : EntryTable E u ta e d) (p : Prepared u w) : EntryTable E w ta e d where
  robot := by obtain ⟨a, h1, h2⟩ := f.robot; exact ⟨a, h1.grow p.heap p.strs, p.heap _ _ h2⟩
  time := by obtain ⟨a, h1, h2⟩ := f.time; exact ⟨a, h1.grow p.heap p.strs, p.heap _ _ h2⟩
  data h1 h2 := (f.data h1 h2).grow p.heap p.strs
  clos n r l h := by obtain ⟨a, h1, h2⟩ := f.clos n r l h; exact ⟨a, h1.grow p.heap p.strs, p.heap _ _ h2⟩
  nil h := (f.nil h).grow p.heap p.strs

/-- The value of a number field. -/
theorem push_field {x : Int} (hx : I32 x) (ta : Nat) (hta : Live u.heap ta) : ∀ u1, Prepared u u1 → ∃ h va, pushInt u1 x = { u1 with stack := va :: u1.stack, heap := h } ∧
    VInv (pushInt u1 x) ∧ (∀ a c, Holds u1.heap a c → Holds h a c) ∧ Holds h va (.atom (.int x)) ∧ va ≠ ta ∧ True := by
  intro u1 p
  have i := p.inv
  refine ⟨_, _, rfl, i.push (c := .atom (.int x)) hx, fun _ _ h => holds_old i.heap h, holds_new i.heap _, ?_, trivial⟩
  intro h
  obtain ⟨c, hc⟩ := hta
  exact new_fresh i.heap (.atom (.int x)) c (by rw [h]; exact p.heap _ _ hc)

theorem entry_table (law : Obj.StrcmpLaw E.sc) {vm : VM} (i : VInv vm) {e : VElem} {d : Cell} (hd : Holds vm.heap e.data d) (hts : e.ts < 65536) (hr : e.robot < 65536)
    (hz : vm.strings.id2str.length + 3 ≤ 65534) :
    ∃ u ta, stigEntryTable E e vm = .ok u ∧ Prepared vm u ∧ u.stack = ta :: vm.stack ∧ ¬ Live vm.heap ta ∧ EntryTable E u ta e d ∧
      u.strings.id2str.length ≤ vm.strings.id2str.length + 3 := by
  have m0 := FMaking.start i
  have m0z : (pushT vm).strings.id2str.length = vm.strings.id2str.length := rfl
  obtain ⟨u1, t1, a1, e1, m1, k1, h1, n1, _, z1, _⟩ := m0.field (E := E) law (x := "robot") (by decide) (by simp) (by omega) (vc := .atom (.int e.robot)) (by simp)
    (push_field (x := (e.robot : Int)) (by unfold I32; omega) _ ⟨_, m0.tab⟩)
  have hne : e.data ≠ vm.heap.brk := fun h => m0.fresh d (h ▸ hd)
  have hd1 : Holds u1.heap e.data d := m1.prep.heap _ _ hd
  by_cases hn : d = .atom .nil
  · subst hn
    obtain ⟨u2, t2, j, e2, m2, k2, g2, z2⟩ := m1.nofield (E := E) law (x := "data") (by decide) (by intro f hf; cases List.mem_singleton.mp hf; show ascii "robot" ≠ _; decide) (by omega) hd1
    obtain ⟨u3, t3, a3, e3, m3, k3, h3, n3, _, z3, g3⟩ := m2.field (E := E) law (x := "timestamp") (by decide) (by intro f hf; cases List.mem_singleton.mp hf; show ascii "robot" ≠ _; decide) (by omega) (vc := .atom (.int e.ts)) (by simp)
      (push_field (x := (e.ts : Int)) (by unfold I32; omega) _ ⟨_, m2.tab⟩)
    refine ⟨u3, _, ?_, m3.prep, m3.stack, fun ⟨c, h⟩ => m3.fresh c h, ⟨⟨a1, m3.at law (by simp), k3 _ _ n1 (k2 _ _ n1 h1)⟩, ⟨a3, m3.at law (by simp), h3⟩, fun h => absurd rfl h, fun n r l h => (by cases h),
      fun _ => m3.none law (by decide) (by
        intro f hf
        simp only [List.nil_append, List.cons_append, List.mem_cons, List.not_mem_nil, or_false] at hf
        rcases hf with rfl | rfl
        · show ascii "robot" ≠ _; decide
        · show ascii "timestamp" ≠ _; decide) (g3 _ _ g2)⟩, by omega⟩
    unfold stigEntryTable
    rw [e1, Res.ok_bind, e2, Res.ok_bind, e3]
  · obtain ⟨u2, t2, a2, e2, m2, k2, h2, n2, q2, z2, _⟩ := m1.field (E := E) law (x := "data") (by decide) (by intro f hf; cases List.mem_singleton.mp hf; show ascii "robot" ≠ _; decide) (by omega) (vc := d) (R := (· = e.data)) hn
      (p := fun vm => pushAddr vm e.data) (fun w p => ⟨_, _, rfl, p.inv.pushAddr ⟨_, p.heap _ _ hd1⟩, fun _ _ h => h, p.heap _ _ hd1, hne, rfl⟩)
    obtain ⟨u3, t3, a3, e3, m3, k3, h3, n3, _, z3, g3⟩ := m2.field (E := E) law (x := "timestamp") (by decide) (by
        intro f hf
        simp only [List.nil_append, List.cons_append, List.mem_cons, List.not_mem_nil, or_false] at hf
        rcases hf with rfl | rfl
        · show ascii "robot" ≠ _; decide
        · show ascii "data" ≠ _; decide) (by omega) (vc := .atom (.int e.ts)) (by simp)
      (push_field (x := (e.ts : Int)) (by unfold I32; omega) _ ⟨_, m2.tab⟩)
    refine ⟨u3, _, ?_, m3.prep, m3.stack, fun ⟨c, h⟩ => m3.fresh c h, ⟨⟨a1, m3.at law (by simp), k3 _ _ n1 (k2 _ _ n1 h1)⟩, ⟨a3, m3.at law (by simp), h3⟩, fun _ hc => ?_, fun n r l h => ?_, fun h => absurd h hn⟩, by omega⟩
    · unfold stigEntryTable
      rw [e1, Res.ok_bind, e2, Res.ok_bind, e3]
    · rw [← q2 hc]
      exact m3.at law (by simp)
    · subst h
      exact ⟨a2, m3.at law (by simp), k3 _ _ n2 h2⟩

/-! ### Reading a field -/

/-- The machine after `buzzvm_pushs` and `buzzvm_tget` with a table on top of the stack. -/
theorem read_field {w : VM} (i : VInv w) {ra : Nat} {st : List Nat} (hs : w.stack = ra :: st) {x : String} (hz : w.strings.id2str.length ≤ 65533) {a : Nat} (f : FieldAt E w ra x a) :
    ∃ w', (pushName x w >>= tget E) = .ok w' ∧ Prepared w w' ∧ w'.stack = a :: st ∧ w'.strings.id2str.length ≤ w.strings.id2str.length + 1 := by
  obtain ⟨t, sid, y, t1, t2, t3, rfl⟩ := f
  obtain ⟨sm, j, e1, p1, g1, z1, is⟩ := name_prep i x hz
  have hj : j = sid := same_id is g1 (p1.strs _ _ t2)
  subst hj
  generalize hu : push { w with strings := sm } (.atom (.str j (ascii x))) = u1 at *
  have st1 : u1.stack = w.heap.brk :: ra :: st := by rw [← hu, ← hs]; rfl
  have a1 : At u1 0 (.atom (.str j (ascii x))) := ⟨_, by rw [st1]; rfl, by rw [← hu]; exact holds_new i.heap _⟩
  have a2 : At u1 1 (.tab t) := ⟨ra, by rw [st1]; rfl, p1.heap _ _ t1⟩
  obtain ⟨_, _, _, _, _, c1⟩ := At.peekCell a1
  obtain ⟨_, _, _, _, c2, _⟩ := At.peekCell a2
  have c1 : peek u1 1 = .ok (.str j (ascii x)) := c1
  have c2 : peekCell u1 2 = .ok (.tab t) := c2
  have hpop : popN u1 2 = { u1 with stack := st } := by unfold popN; rw [st1]; rfl
  have hl : Live w.heap y.2 := table_get_live (E := E) i t1 t3
  refine ⟨{ u1 with stack := y.2 :: st }, ?_, p1.restack ?_, rfl, ?_⟩
  · rw [e1, Res.ok_bind]
    unfold tget need
    rw [if_neg (by rw [st1]; simp only [List.length_cons]; omega), c2, Res.ok_bind]
    simp only [c1, Res.ok_bind, isKey, t3, if_true, hpop]
    rfl
  · intro b hb
    rcases List.mem_cons.mp hb with rfl | hb
    · obtain ⟨d, hd⟩ := hl
      exact ⟨d, p1.heap _ _ hd⟩
    · obtain ⟨d, hd⟩ := i.stack b (by rw [hs]; exact List.mem_cons_of_mem _ hb)
      exact ⟨d, p1.heap _ _ hd⟩
  · show u1.strings.id2str.length ≤ _
    rw [← hu]
    exact z1

/-- The same for a field that is not there. -/
theorem read_none {w : VM} (i : VInv w) {ra : Nat} {st : List Nat} (hs : w.stack = ra :: st) {x : String} (hz : w.strings.id2str.length ≤ 65533) (f : NoField E w ra x) :
    ∃ w' a, (pushName x w >>= tget E) = .ok w' ∧ Prepared w w' ∧ w'.stack = a :: st ∧ Holds w'.heap a (.atom .nil) ∧ w'.strings.id2str.length ≤ w.strings.id2str.length + 1 := by
  obtain ⟨t, sid, t1, t2, t3⟩ := f
  obtain ⟨sm, j, e1, p1, g1, z1, is⟩ := name_prep i x hz
  have hj : j = sid := same_id is g1 (p1.strs _ _ t2)
  subst hj
  generalize hu : push { w with strings := sm } (.atom (.str j (ascii x))) = u1 at *
  have st1 : u1.stack = w.heap.brk :: ra :: st := by rw [← hu, ← hs]; rfl
  have a1 : At u1 0 (.atom (.str j (ascii x))) := ⟨_, by rw [st1]; rfl, by rw [← hu]; exact holds_new i.heap _⟩
  have a2 : At u1 1 (.tab t) := ⟨ra, by rw [st1]; rfl, p1.heap _ _ t1⟩
  obtain ⟨_, _, _, _, _, c1⟩ := At.peekCell a1
  obtain ⟨_, _, _, _, c2, _⟩ := At.peekCell a2
  have c1 : peek u1 1 = .ok (.str j (ascii x)) := c1
  have c2 : peekCell u1 2 = .ok (.tab t) := c2
  have hpop : popN u1 2 = { u1 with stack := st } := by unfold popN; rw [st1]; rfl
  have p2 : Prepared w { u1 with stack := st } := p1.restack fun b hb => by
    obtain ⟨d, hd⟩ := i.stack b (by rw [hs]; exact List.mem_cons_of_mem _ hb)
    exact ⟨d, p1.heap _ _ hd⟩
  refine ⟨pushNil { u1 with stack := st }, _, ?_, p2.trans ⟨rfl, .inl rfl, fun _ _ h => holds_old p2.inv.heap h, fun _ _ h => h, p2.inv.push (c := .atom .nil) trivial⟩, rfl, holds_new p2.inv.heap _, ?_⟩
  · rw [e1, Res.ok_bind]
    unfold tget need
    rw [if_neg (by rw [st1]; simp only [List.length_cons]; omega), c2, Res.ok_bind]
    simp only [c1, Res.ok_bind, isKey, t3, if_true, hpop]
    rfl
  · show u1.strings.id2str.length ≤ _
    rw [← hu]
    exact z1

end Buzz.VM
