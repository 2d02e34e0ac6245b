import Verif.NbrRun
import Verif.SwarmSim
import Verif.Callback

/-
The table that `map`, `filter`, `kin` and `nonkin` of `neighbors` return, as it is made on the machine.
-/
namespace Buzz.VM

open Buzz.F32 Buzz.Msg Buzz.Heap Buzz.Props

variable {E : Env}

/-- The machine `u` is `v` with another stack, more strings, more objects and maybe more functions registered. -/
structure Prepared (v u : VM) : Prop where
  eq : u = { v with stack := u.stack, strings := u.strings, heap := u.heap, nfuns := u.nfuns }
  nfuns : u.nfuns = v.nfuns ∨ u.nfuns = max v.nfuns 8
  heap : ∀ a c, Holds v.heap a c → Holds u.heap a c
  strs : ∀ j s, Strman.get v.strings j = some s → Strman.get u.strings j = some s
  inv : VInv u

theorem Prepared.refl {v : VM} (i : VInv v) : Prepared v v := ⟨rfl, .inl rfl, fun _ _ h => h, fun _ _ h => h, i⟩

theorem Prepared.trans {v u w : VM} (p : Prepared v u) (q : Prepared u w) : Prepared v w := by
  refine ⟨?_, ?_, fun a c h => q.heap a c (p.heap a c h), fun j s h => q.strs j s (p.strs j s h), q.inv⟩
  · have h1 := q.eq
    rw [p.eq] at h1
    exact h1
  · rcases p.nfuns with p | p <;> rcases q.nfuns with q | q
    · exact .inl (q.trans p)
    · exact .inr (by rw [q, p])
    · exact .inr (q.trans p)
    · exact .inr (by rw [q, p]; omega)

theorem Prepared.state {v u : VM} (p : Prepared v u) : u.state = v.state := (congrArg VM.state p.eq :)
theorem Prepared.frames {v u : VM} (p : Prepared v u) : u.frames = v.frames := (congrArg VM.frames p.eq :)
theorem Prepared.rest {v u : VM} (p : Prepared v u) : u.rest = v.rest := (congrArg VM.rest p.eq :)
theorem Prepared.gsyms {v u : VM} (p : Prepared v u) : u.gsyms = v.gsyms := (congrArg VM.gsyms p.eq :)
theorem Prepared.other {v u : VM} (p : Prepared v u) : u.other = v.other := (congrArg VM.other p.eq :)

theorem Prepared.method {v u : VM} {sa : Nat} {args : List Nat} (p : Prepared v u) (m : Method v sa args) : Method u sa args := by
  refine ⟨p.inv, p.state.trans m.ready, ?_⟩
  obtain ⟨f, fs, b, st, r, q, hf, hs, hr, hq⟩ := m.ex
  exact ⟨f, fs, b, st, r, q, p.frames.trans hf, hs, p.rest.trans hr, p.heap _ _ hq⟩

/-- Another stack. -/
theorem Prepared.restack {v u : VM} (p : Prepared v u) {s : List Nat} (h : ∀ a ∈ s, Live u.heap a) : Prepared v { u with stack := s } :=
  ⟨by have := p.eq; rw [this], p.nfuns, p.heap, p.strs, { p.inv with stack := h }⟩

/-- One more on the stack. -/
theorem Prepared.push {vm u : VM} (p : Prepared vm u) {a : Nat} (h : Live u.heap a) : Prepared vm (pushAddr u a) :=
  p.restack (s := a :: u.stack) fun b hb => by
    rcases List.mem_cons.mp hb with rfl | hb
    · exact h
    · exact p.inv.stack b hb

/-- The field `poses` of the table `sa` is the object `pa`. -/
def PosesAt (E : Env) (vm : VM) (sa pa : Nat) : Prop :=
  ∃ t sid y, Holds vm.heap sa (.tab t) ∧ Strman.get vm.strings sid = some (ascii "poses") ∧ Table.get E.sc t (.str sid (ascii "poses")) = .ok (some y) ∧ y.2 = pa

theorem PosesAt.prep {v u : VM} {sa pa : Nat} (h : PosesAt E v sa pa) (p : Prepared v u) : PosesAt E u sa pa := by
  obtain ⟨t, sid, y, h1, h2, h3, h4⟩ := h
  exact ⟨t, sid, y, p.heap _ _ h1, p.strs _ _ h2, h3, h4⟩

/-- Registering and pushing a name. -/
theorem name_prep {u : VM} (i : VInv u) (x : String) (hz : u.strings.id2str.length ≤ 65533) :
    ∃ sm j, pushName x u = .ok (push { u with strings := sm } (.atom (.str j (ascii x)))) ∧ Prepared u (push { u with strings := sm } (.atom (.str j (ascii x)))) ∧
      Strman.get sm j = some (ascii x) ∧ sm.id2str.length ≤ u.strings.id2str.length + 1 ∧ Strman.Inv sm := by
  obtain ⟨sm, j, r1, r2, r3, r4, r5, r6⟩ := register_inv i.strings hz (ascii x) true
  refine ⟨sm, j, ?_, ⟨rfl, .inl rfl, fun a c h => holds_old i.heap h, r6, (i.setStrings r2 r6).push r4⟩, r4, r3, r2⟩
  unfold pushName pushS
  rw [r1]
  simp only [Res.ok_bind, Nat.mod_eq_of_lt r5, r4]
  rfl

/-- The data on top of the stack. -/
theorem poses_get {u : VM} (i : VInv u) {sa pa : Nat} (hp : PosesAt E u sa pa) (hl : Live u.heap pa) (hz : u.strings.id2str.length ≤ 65533) :
    ∃ u1 u', pushName "poses" (pushAddr u sa) = .ok u1 ∧ tget E u1 = .ok u' ∧ Prepared u u' ∧ u'.stack = pa :: u.stack ∧ u'.strings.id2str.length ≤ u.strings.id2str.length + 1 ∧
      ∀ a c, Holds u'.heap a c → Holds u.heap a c ∨ children c = [] := by
  obtain ⟨t, sid, y, t1, t2, t3, rfl⟩ := hp
  have i1 := i.pushAddr (a := sa) ⟨_, t1⟩
  obtain ⟨sm, j, e1, p1, g1, z1, is⟩ := name_prep i1 "poses" hz
  have hj : j = sid := same_id is g1 (p1.strs _ _ t2)
  subst hj
  generalize hu : push { pushAddr u sa with strings := sm } (.atom (.str j (ascii "poses"))) = u1 at *
  have st1 : u1.stack = u.heap.brk :: sa :: u.stack := by rw [← hu]; rfl
  have old1 : ∀ a c, Holds u.heap a c → Holds u1.heap a c := p1.heap
  have a1 : At u1 0 (.atom (.str j (ascii "poses"))) := ⟨_, by rw [st1]; rfl, by rw [← hu]; exact holds_new i.heap _⟩
  have a2 : At u1 1 (.tab t) := ⟨sa, by rw [st1]; rfl, old1 _ _ t1⟩
  obtain ⟨b1, _, _, _, _, c1⟩ := At.peekCell a1
  obtain ⟨b2, _, _, _, c2, _⟩ := At.peekCell a2
  have c1 : peek u1 1 = .ok (.str j (ascii "poses")) := c1
  have c2 : peekCell u1 2 = .ok (.tab t) := c2
  have hpop : popN u1 2 = { u1 with stack := u.stack } := by unfold popN; rw [st1]; rfl
  obtain ⟨d, hd⟩ := hl
  refine ⟨u1, { u1 with stack := y.2 :: u.stack }, e1, ?_, ?_, rfl, ?_, ?_⟩
  · unfold tget need
    rw [if_neg (by rw [st1]; simp only [List.length_cons]; omega), c2, Res.ok_bind]
    simp only [c1, Res.ok_bind, isKey, t3, if_true, hpop]
    rfl
  · have hs : ∀ a ∈ y.2 :: u.stack, Live u1.heap a := by
      intro a ha
      rcases List.mem_cons.mp ha with rfl | ha
      · exact ⟨d, old1 _ _ hd⟩
      · obtain ⟨d, hd⟩ := i.stack a ha
        exact ⟨d, old1 _ _ hd⟩
    have p0 : Prepared u (pushAddr u sa) := ⟨rfl, .inl rfl, fun _ _ h => h, fun _ _ h => h, i1⟩
    exact (p0.trans p1).restack hs
  · show u1.strings.id2str.length ≤ _
    rw [← hu]
    exact z1
  · intro a c h
    have h : Holds u1.heap a c := h
    rw [← hu] at h
    rcases holds_newobj h with h | ⟨_, rfl⟩
    · exact .inl h
    · exact .inr rfl

/-- A table under construction with these fields, and what else has been made. -/
structure NMaking (v u : VM) (ta : Nat) (t : Table.Tbl (Nat × Nat)) (fs : List (String × Cell)) : Prop where
  prep : Prepared v u
  fresh : ∀ c, ¬ Holds v.heap ta c
  tab : Holds u.heap ta (.tab t)
  wf : Dict.WF Table.hashN Table.eqd t
  keys : Table.Keys (KeyOk .strs u.strings) t
  fields : ∀ f ∈ fs, ∃ sid y, Strman.get u.strings sid = some (ascii f.1) ∧ (Obj.str sid (ascii f.1), y) ∈ Dict.entries t ∧ Holds u.heap y.2 f.2
  only : ∀ e ∈ Dict.entries t, ∃ f ∈ fs, ∃ sid, e.1 = .str sid (ascii f.1)
  vals : ∀ e ∈ Dict.entries t, e.2.2 ≠ ta ∧ ∀ c, ¬ Holds v.heap e.2.2 c
  made : ∀ a c, Holds u.heap a c → Holds v.heap a c ∨ a = ta ∨ (∃ e ∈ Dict.entries t, a = e.2.2) ∨ ∀ b ∈ children c, b ≠ ta ∧ ∀ e ∈ Dict.entries t, b ≠ e.2.2

variable {v u : VM} {ta : Nat} {t : Table.Tbl (Nat × Nat)} {fs : List (String × Cell)}

theorem new_ok (h : Heap) (sm : Strman.SM Bytes) : CellOk h sm (.tab Table.new) := by
  refine ⟨by decide, ?_⟩
  rw [show Dict.entries (Table.new : Table.Tbl (Nat × Nat)) = [] from Dict.entries_new _]
  intro e he
  cases he

theorem NMaking.start (i : VInv v) (n : Nat) (hn : n = max v.nfuns 8) :
    NMaking v { v with heap := (newobj v.heap (.tab Table.new)).1, nfuns := n } (newobj v.heap (.tab Table.new)).2 Table.new [] where
  prep := ⟨rfl, .inr hn, fun a c h => holds_old i.heap h, fun _ _ h => h, { i.newobj (new_ok _ _) with }⟩
  fresh c := new_fresh i.heap _ c
  tab := holds_new i.heap _
  wf := Dict.new_wf (by decide)
  keys e he := by
    rw [show Dict.entries (Table.new : Table.Tbl (Nat × Nat)) = [] from Dict.entries_new _] at he
    cases he
  fields f hf := by cases hf
  only e he := by
    rw [show Dict.entries (Table.new : Table.Tbl (Nat × Nat)) = [] from Dict.entries_new _] at he
    cases he
  vals e he := by
    rw [show Dict.entries (Table.new : Table.Tbl (Nat × Nat)) = [] from Dict.entries_new _] at he
    cases he
  made a c h := by
    rcases holds_newobj h with h | ⟨h, _⟩
    · exact .inl h
    · exact .inr (.inl h)

theorem NMaking.val_live (m : NMaking v u ta t fs) {e : Obj × (Nat × Nat)} (he : e ∈ Dict.entries t) : Live u.heap e.2.2 :=
  ((m.prep.inv.cells _ _ m.tab).2 e he).2.2.2

/-- More objects. -/
theorem NMaking.grow (m : NMaking v u ta t fs) {w : VM} (p : Prepared u w)
    (hn : ∀ a c, Holds w.heap a c → Holds u.heap a c ∨ ∀ b ∈ children c, Live v.heap b ∨ ¬ Live u.heap b) : NMaking v w ta t fs where
  prep := m.prep.trans p
  fresh := m.fresh
  tab := p.heap _ _ m.tab
  wf := m.wf
  keys e he := (m.keys e he).grow p.strs
  fields f hf := by
    obtain ⟨sid, y, h1, h2, h3⟩ := m.fields f hf
    exact ⟨sid, y, p.strs _ _ h1, h2, p.heap _ _ h3⟩
  only := m.only
  vals := m.vals
  made a c h := by
    rcases hn a c h with h | h
    · exact m.made a c h
    · refine .inr (.inr (.inr fun b hb => ⟨?_, fun e he => ?_⟩))
      · rintro rfl
        rcases h _ hb with ⟨d, hd⟩ | h
        · exact m.fresh d hd
        · exact h ⟨_, m.tab⟩
      · rintro rfl
        rcases h _ hb with ⟨d, hd⟩ | h
        · exact (m.vals e he).2 d hd
        · exact h (m.val_live he)

theorem NMaking.addr (m : NMaking v u ta t fs) {a : Nat} (h : Live u.heap a) : NMaking v (pushAddr u a) ta t fs :=
  m.grow ⟨rfl, .inl rfl, fun _ _ h => h, fun _ _ h => h, m.prep.inv.pushAddr h⟩ fun _ _ h => .inl h

/-- A field. -/
theorem NMaking.put (law : Obj.StrcmpLaw E.sc) (m : NMaking v u ta t fs) {x : String} (hx : Obj.CStr (ascii x)) (hnew : ∀ f ∈ fs, ascii f.1 ≠ ascii x) {va ka j : Nat} {vc : Cell}
    {st : List Nat} (hst : u.stack = va :: ka :: ta :: st) (hj : Strman.get u.strings j = some (ascii x)) (hk : Holds u.heap ka (.atom (.str j (ascii x)))) (hv : Holds u.heap va vc)
    (hn : vc ≠ .atom .nil) (hvt : va ≠ ta) (hnc : (∀ n r l, vc ≠ .clo n r l) → (∀ a c, Holds u.heap a c → va ∉ children c) ∧ ∀ c, ¬ Holds v.heap va c) :
    ∃ h' t' oa, tput E u = .ok { u with stack := st, heap := h' } ∧ NMaking v { u with stack := st, heap := h' } ta t' (fs ++ [(x, asField ta vc)]) ∧
      (Obj.str j (ascii x), (ka, oa)) ∈ Dict.entries t' ∧ ((∀ n r l, vc ≠ .clo n r l) → oa = va) ∧ ∀ a c, a ≠ ta → Holds u.heap a c → Holds h' a c := by
  obtain ⟨h', t', oa, f1, f2, f3, f4, f5, f6, f7, f8, f9, f10, f11⟩ := tput_new (E := E) (key_homog law m.prep.inv.strings .strs) m.prep.inv hst hv hk m.tab m.wf m.keys
    (show KeyOk .strs u.strings (.str j (ascii x)) from ⟨rfl, hj, hx⟩) rfl hn hvt
  have keep : ∀ e ∈ Dict.entries t, e ∈ Dict.entries t' := by
    intro e he
    refine f9.mem_iff.mpr (List.mem_append_left _ (List.mem_filter.mpr ⟨he, ?_⟩))
    obtain ⟨f, hf, sid, hs⟩ := m.only e he
    have : Obj.str j (ascii x) ≠ e.1 := by
      intro h
      rw [hs, Obj.str.injEq] at h
      exact hnew f hf h.2.symm
    simp [Table.eqd, this]
  have hin : (Obj.str j (ascii x), (ka, oa)) ∈ Dict.entries t' := f9.mem_iff.mpr (List.mem_append_right _ (List.mem_singleton.mpr rfl))
  have back : ∀ e ∈ Dict.entries t', e ∈ Dict.entries t ∨ e = (Obj.str j (ascii x), (ka, oa)) := by
    intro e he
    rcases List.mem_append.mp (f9.mem_iff.mp he) with he | he
    · exact .inl (List.mem_filter.mp he).1
    · exact .inr (List.mem_singleton.mp he)
  have hoa : ∀ c, ¬ Holds v.heap oa c := by
    intro c hc
    rcases f11 with ⟨_, f⟩ | ⟨f, rfl⟩
    · exact f c (m.prep.heap _ _ hc)
    · exact (hnc f).2 c hc
  have hoc : ∀ a c, Holds u.heap a c → oa ∉ children c := by
    intro a c ha hb
    rcases f11 with ⟨_, f⟩ | ⟨f, rfl⟩
    · obtain ⟨d, hd⟩ := holds_isSome.mp ((m.prep.inv.cells a c ha).children oa hb)
      exact f d hd
    · exact (hnc f).1 a c ha hb
  have p : Prepared v { u with stack := st, heap := h' } := by
    refine ⟨by have := m.prep.eq; rw [this], m.prep.nfuns, fun a c h => f3 a c (fun e => m.fresh c (e ▸ h)) (m.prep.heap _ _ h), m.prep.strs, f2⟩
  refine ⟨h', t', oa, f1, ⟨p, m.fresh, f4, f5, f6, ?_, ?_, ?_, ?_⟩, hin, fun h => ?_, f3⟩
  · intro f hf
    rcases List.mem_append.mp hf with hf | hf
    · obtain ⟨sid, y, h1, h2, h3⟩ := m.fields f hf
      exact ⟨sid, y, h1, keep _ h2, f3 _ _ (m.vals _ h2).1 h3⟩
    · cases List.mem_singleton.mp hf
      exact ⟨j, _, hj, hin, f7⟩
  · intro e he
    rcases back e he with he | rfl
    · obtain ⟨f, hf, h⟩ := m.only e he
      exact ⟨f, List.mem_append_left _ hf, h⟩
    · exact ⟨_, List.mem_append_right _ (List.mem_singleton.mpr rfl), j, rfl⟩
  · intro e he
    rcases back e he with he | rfl
    · exact m.vals e he
    · exact ⟨f8, hoa⟩
  · intro a c h
    by_cases h1 : a = ta
    · exact .inr (.inl h1)
    by_cases h2 : a = oa
    · exact .inr (.inr (.inl ⟨_, hin, h2⟩))
    have hu := f10 a c h h1 h2
    rcases m.made a c hu with h | h | ⟨e, he, h⟩ | h
    · exact .inl h
    · exact .inr (.inl h)
    · exact .inr (.inr (.inl ⟨e, keep e he, h⟩))
    · refine .inr (.inr (.inr fun b hb => ⟨(h b hb).1, fun e he => ?_⟩))
      rcases back e he with he | rfl
      · exact (h b hb).2 e he
      · rintro rfl
        exact hoc a c hu hb
  · rcases f11 with ⟨⟨n, r, l, e⟩, _⟩ | f
    · exact absurd e (h n r l)
    · exact f.2

/-- A name on the stack. -/
theorem NMaking.name (m : NMaking v u ta t fs) (x : String) (hz : u.strings.id2str.length ≤ 65533) :
    ∃ w j, pushName x u = .ok w ∧ NMaking v w ta t fs ∧ w.stack = u.heap.brk :: u.stack ∧ Holds w.heap u.heap.brk (.atom (.str j (ascii x))) ∧
      Strman.get w.strings j = some (ascii x) ∧ w.strings.id2str.length ≤ u.strings.id2str.length + 1 ∧ (∀ a c, Holds u.heap a c → Holds w.heap a c) ∧
      ∀ a c, Holds w.heap a c → Holds u.heap a c ∨ children c = [] := by
  obtain ⟨sm, j, e1, p1, g1, z1, _⟩ := name_prep m.prep.inv x hz
  have hn : ∀ a c, Holds (push { u with strings := sm } (.atom (.str j (ascii x)))).heap a c → Holds u.heap a c ∨ children c = [] := by
    intro a c h
    rcases holds_newobj h with h | ⟨_, rfl⟩
    · exact .inl h
    · exact .inr rfl
  refine ⟨_, j, e1, m.grow p1 fun a c h => (hn a c h).imp id fun h b hb => ?_, rfl, holds_new m.prep.inv.heap _, g1, z1, p1.heap, hn⟩
  rw [h] at hb
  cases hb

/-- A C function on the stack. -/
theorem NMaking.func (m : NMaking v u ta t fs) {r : Int} (hr : I32 r) :
    ∃ n, NMaking v (pushC u r false) ta t fs ∧ (pushC u r false).stack = u.heap.brk :: u.stack ∧ Holds (pushC u r false).heap u.heap.brk (.clo false r [n]) ∧
      ∀ a c, Holds u.heap a c → Holds (pushC u r false).heap a c := by
  have i := m.prep.inv
  have i1 : VInv { u with heap := (newobj u.heap (.clo false r [])).1 } := i.newobj ⟨hr, by simp⟩
  have h1 : Holds (newobj (newobj u.heap (.clo false r [])).1 (.atom .nil)).1 (newobj u.heap (.clo false r [])).2 (.clo false r []) := holds_old i1.heap (holds_new i.heap _)
  have old : ∀ a c, Holds u.heap a c → Holds (pushC u r false).heap a c := by
    intro a c h
    refine (holds_write h1).mpr (.inr ⟨fun e => ?_, holds_old i1.heap (holds_old i.heap h)⟩)
    subst e
    exact new_fresh i.heap _ _ h
  refine ⟨_, m.grow ⟨rfl, .inl rfl, old, fun _ _ h => h, i.pushC hr false⟩ ?_, rfl, (holds_write h1).mpr (.inl ⟨rfl, rfl⟩), old⟩
  intro a c h
  rcases (holds_write h1).mp h with ⟨_, rfl⟩ | ⟨_, h⟩
  · right
    intro b hb
    simp only [children, List.mem_singleton] at hb
    subst hb
    right
    rintro ⟨d, hd⟩
    exact new_fresh i1.heap (.atom .nil) d (holds_old i.heap hd)
  · rcases holds_newobj h with h | ⟨_, rfl⟩
    · rcases holds_newobj h with h | ⟨_, rfl⟩
      · exact .inl h
      · exact .inr fun b hb => by cases hb
    · exact .inr fun b hb => by cases hb

/-- A method. -/
theorem NMaking.method (law : Obj.StrcmpLaw E.sc) (m : NMaking v u ta t fs) {x : String × Nat} (hx : Obj.CStr (ascii x.1)) (hnew : ∀ f ∈ fs, ascii f.1 ≠ ascii x.1)
    (hr : x.2 < 2147483648) (hz : u.strings.id2str.length ≤ 65533) :
    ∃ w t', nbrMethod E ta x u = .ok w ∧ NMaking v w ta t' (fs ++ [(x.1, .clo false (x.2 : Int) [ta])]) ∧ w.stack = u.stack ∧ w.strings.id2str.length ≤ u.strings.id2str.length + 1 := by
  obtain ⟨w1, j, e1, m1, s1, k1, g1, z1, o1, _⟩ := (m.addr (a := ta) ⟨_, m.tab⟩).name x.1 hz
  obtain ⟨n, m2, s2, h2, o2⟩ := m1.func (r := (x.2 : Int)) (by unfold I32; omega)
  have hne : w1.heap.brk ≠ ta := by
    intro h
    have := holds_inj (o2 _ _ m1.tab) (h ▸ h2)
    cases this
  obtain ⟨h', t', oa, f1, f2, _⟩ := m2.put (E := E) law hx hnew (vc := .clo false (x.2 : Int) [n]) (ka := u.heap.brk) (st := u.stack) (j := j) (by rw [s2, s1]; rfl) g1 (o2 _ _ k1) h2 (by simp) hne
    (fun h => absurd rfl (h _ _ _))
  refine ⟨_, t', ?_, f2, rfl, z1⟩
  unfold nbrMethod
  rw [e1, Res.ok_bind]
  exact f1

theorem NMaking.methods (law : Obj.StrcmpLaw E.sc) : ∀ (l : List (String × Nat)) {u : VM} {t : Table.Tbl (Nat × Nat)} {fs : List (String × Cell)}, NMaking v u ta t fs →
    (∀ x ∈ l, Obj.CStr (ascii x.1) ∧ x.2 < 8) → (∀ f ∈ fs, ∀ x ∈ l, ascii f.1 ≠ ascii x.1) → l.Pairwise (fun a b => ascii a.1 ≠ ascii b.1) →
    u.strings.id2str.length + l.length ≤ 65534 →
    ∃ w t', l.foldlM (fun vm x => nbrMethod E ta x vm) u = .ok w ∧ NMaking v w ta t' (fs ++ l.map (fun x => (x.1, .clo false (x.2 : Int) [ta]))) ∧ w.stack = u.stack ∧
      w.strings.id2str.length ≤ u.strings.id2str.length + l.length
  | [], u, t, fs, m, _, _, _, _ => ⟨u, t, rfl, by simpa using m, rfl, Nat.le_refl _⟩
  | x :: l, u, t, fs, m, hc, hd, hp, hz => by
    rw [List.pairwise_cons] at hp
    rw [List.length_cons] at hz
    have hx := hc x (List.mem_cons_self ..)
    obtain ⟨u1, t1, e1, m1, s1, z1⟩ := m.method law hx.1 (fun f hf => hd f hf x (List.mem_cons_self ..)) (by omega) (by omega)
    obtain ⟨u2, t2, e2, m2, s2, z2⟩ := NMaking.methods law l m1 (fun y hy => hc y (List.mem_cons_of_mem _ hy)) (by
      intro f hf y hy
      rcases List.mem_append.mp hf with hf | hf
      · exact hd f hf y (List.mem_cons_of_mem _ hy)
      · cases List.mem_singleton.mp hf
        exact hp.1 y hy) hp.2 (by omega)
    refine ⟨u2, t2, ?_, ?_, s2.trans s1, by rw [List.length_cons]; omega⟩
    · rw [List.foldlM_cons, e1, Res.ok_bind, e2]
    · rw [List.append_assoc] at m2
      exact m2

/-- The methods as fields of the table `ta`. -/
def nbrFields (ta : Nat) : List (String × Cell) := nbrMethods.zipIdx.map fun x => (x.1, .clo false (x.2 : Int) [ta])

theorem table_made (law : Obj.StrcmpLaw E.sc) (i : VInv v) (hz : v.strings.id2str.length + 8 ≤ 65534) :
    ∃ u t, nbrTable E v = .ok (u, v.heap.brk) ∧ NMaking v u v.heap.brk t (nbrFields v.heap.brk) ∧ u.stack = v.stack ∧ u.strings.id2str.length ≤ v.strings.id2str.length + 8 := by
  obtain ⟨u, t, e1, m1, s1, z1⟩ := NMaking.methods (E := E) law nbrMethods.zipIdx (NMaking.start i _ rfl) (by decide) (by simp) (by decide) hz
  refine ⟨u, t, ?_, m1, s1, z1⟩
  unfold nbrTable
  simp only
  rw [e1]
  rfl

/-- The field `poses`. -/
theorem NMaking.poses (law : Obj.StrcmpLaw E.sc) (m : NMaking v u ta t fs) (hnew : ∀ f ∈ fs, ascii f.1 ≠ ascii "poses") {t0 : Table.Tbl (Nat × Nat)}
    (ok : CellOk u.heap u.strings (.tab t0)) (hc : ∀ b ∈ children (.tab t0), Live v.heap b) (hz : u.strings.id2str.length ≤ 65533) :
    ∃ w t' y, nbrSetPoses E ta u.heap.brk { u with heap := (newobj u.heap (.tab t0)).1 } = .ok w ∧ NMaking v w ta t' (fs ++ [("poses", .tab t0)]) ∧ w.stack = u.stack ∧
      PosesAt E w ta u.heap.brk ∧ (y, u.heap.brk) ∈ (Dict.entries t').map (·.2) ∧ Holds w.heap u.heap.brk (.tab t0) ∧ (∀ a c, a ≠ ta → Holds u.heap a c → Holds w.heap a c) ∧
      w.strings.id2str.length ≤ u.strings.id2str.length + 1 := by
  have i := m.prep.inv
  have fr : ∀ d, ¬ Holds u.heap u.heap.brk d := fun d h => new_fresh i.heap (.tab t0) d h
  have p1 : Prepared u { u with heap := (newobj u.heap (.tab t0)).1 } := ⟨rfl, .inl rfl, fun a c h => holds_old i.heap h, fun _ _ h => h, i.newobj ok⟩
  have m1 := m.grow p1 (by
    intro a c h
    rcases holds_newobj h with h | ⟨_, rfl⟩
    · exact .inl h
    · exact .inr fun b hb => .inl (hc b hb))
  have h1 : Holds (newobj u.heap (.tab t0)).1 u.heap.brk (.tab t0) := holds_new i.heap _
  have noc : ∀ a c, Holds (newobj u.heap (.tab t0)).1 a c → u.heap.brk ∉ children c := by
    intro a c h hb
    have : Live u.heap u.heap.brk := by
      rcases holds_newobj h with h | ⟨_, rfl⟩
      · exact holds_isSome.mp ((i.cells a c h).children _ hb)
      · obtain ⟨d, hd⟩ := hc _ hb
        exact ⟨d, m.prep.heap _ _ hd⟩
    obtain ⟨d, hd⟩ := this
    exact fr d hd
  obtain ⟨w1, j, e1, m2, s1, k1, g1, z1, o1, n1⟩ := (m1.addr (a := ta) ⟨_, m1.tab⟩).name "poses" hz
  have hne : u.heap.brk ≠ ta := by
    intro h
    exact fr _ (h ▸ m.tab)
  have m3 := m2.addr (a := u.heap.brk) ⟨_, o1 _ _ h1⟩
  obtain ⟨h', t', oa, f1, f2, f3, f4, f5⟩ := m3.put (E := E) law (x := "poses") (by decide) hnew (vc := .tab t0) (va := u.heap.brk) (ka := (newobj u.heap (.tab t0)).1.brk) (st := u.stack) (j := j)
    (by show _ :: w1.stack = _; rw [s1]; rfl) g1 k1 (o1 _ _ h1) (by simp) hne (fun _ => ⟨fun a c h hb => (n1 a c h).elim (fun h => noc a c h hb) (fun h => by rw [h] at hb; exact absurd hb (by simp)), fun c h => fr c (m.prep.heap _ _ h)⟩)
  have := f4 (fun _ _ _ h => by cases h)
  subst this
  refine ⟨_, t', _, ?_, f2, rfl, ⟨t', j, _, f2.tab, g1, get_mem (key_homog law f2.prep.inv.strings .strs) f2.wf f2.keys f3, rfl⟩, List.mem_map.mpr ⟨_, f3, rfl⟩, f5 _ _ hne (o1 _ _ h1),
    fun a c ha h => f5 a c ha (o1 _ _ (holds_old i.heap h)), z1⟩
  unfold nbrSetPoses
  rw [e1, Res.ok_bind]
  exact f1

end Buzz.VM
