import Verif.Listen

/-
Objects that only a queue of outgoing messages holds stay as they are: no instruction reads, changes or shares them.
-/
namespace Buzz.VM

open Buzz.F32 Buzz.Msg Buzz.Heap Buzz.Props

/-- An object of a stigmergy or a listener. -/
def Held (o : Other) (a : Nat) : Prop :=
  (∃ e ∈ o.vstigs, e.2.onconflict = some a ∨ e.2.onconflictlost = some a ∨ ∃ x ∈ Dict.entries e.2.data, x.2.key = a ∨ x.2.data = a) ∨
  (∃ e ∈ o.listeners, e.2 = a)

/-- The script has no way to the addresses in `P`: no stack but the `fl` lowest, no symbol, stigmergy or listener has one, nor has any object outside `P`, and new
objects are placed elsewhere. -/
structure Apart (fl : Nat) (P : Nat → Prop) (vm : VM) : Prop where
  up : fl ≤ vm.rest.length
  stack : ∀ a ∈ vm.stack, ¬ P a
  rest : ∀ s ∈ vm.rest.take (vm.rest.length - fl), ∀ a ∈ s, ¬ P a
  frames : ∀ f ∈ vm.frames, ∀ a ∈ f.syms, ¬ P a
  gsyms : ∀ e ∈ vm.gsyms, ¬ P e.2
  other : ∀ a, Held vm.other a → ¬ P a
  cells : ∀ a c, Holds vm.heap a c → ¬ P a → ∀ b ∈ children c, ¬ P b
  low : ∀ a, P a → a < vm.heap.brk

/-- Still apart, and the objects in `P` are as they were. -/
def Sep (fl : Nat) (P : Nat → Prop) (vm w : VM) : Prop := Apart fl P w ∧ ∀ a c, P a → Holds vm.heap a c → Holds w.heap a c

theorem Sep.refl {fl : Nat} {P : Nat → Prop} {vm : VM} (h : Apart fl P vm) : Sep fl P vm vm := ⟨h, fun _ _ _ h => h⟩

theorem Sep.trans {fl : Nat} {P : Nat → Prop} {u v w : VM} (a : Sep fl P u v) (b : Sep fl P v w) : Sep fl P u w := ⟨b.1, fun x c hp h => b.2 x c hp (a.2 x c hp h)⟩

/-- Whatever a computation does, when it ends normally the objects in `P` are untouched and apart. -/
abbrev SepR (fl : Nat) (P : Nat → Prop) (vm : VM) (r : Res VM) : Prop := Outcome (Sep fl P vm) (fun _ => True) r

/-- What is left of `Apart` when the machine has returned to one of the `fl` lowest stacks. -/
structure Down (fl : Nat) (P : Nat → Prop) (vm : VM) : Prop where
  down : vm.rest.length < fl
  frames : ∀ f ∈ vm.frames, ∀ a ∈ f.syms, ¬ P a
  gsyms : ∀ e ∈ vm.gsyms, ¬ P e.2
  other : ∀ a, Held vm.other a → ¬ P a
  cells : ∀ a c, Holds vm.heap a c → ¬ P a → ∀ b ∈ children c, ¬ P b
  low : ∀ a, P a → a < vm.heap.brk

/-- Returned, and the objects in `P` are as they were. -/
def Gone (fl : Nat) (P : Nat → Prop) (vm w : VM) : Prop := Down fl P w ∧ ∀ a c, P a → Holds vm.heap a c → Holds w.heap a c

/-- The same of a computation that may return. -/
abbrev SepT (fl : Nat) (P : Nat → Prop) (vm : VM) (r : Res VM) : Prop := Outcome (fun w => Sep fl P vm w ∨ Gone fl P vm w) (fun _ => True) r

/-- C functions that leave alone what they cannot reach. -/
def FApart (F : CFuns) : Prop := ∀ n fl P vm, Apart fl P vm → SepT fl P vm (F n vm)

variable {fl : Nat} {P : Nat → Prop}

/-! ### Changes of the machine -/

theorem holds_newobj {h : Heap} {c d : Cell} {a : Nat} (hh : Holds (newobj h c).1 a d) : Holds h a d ∨ (a = h.brk ∧ d = c) := by
  obtain ⟨m, h1, h2⟩ := hh
  simp only [newobj, alloc, FMap.get_append, FMap.get_cons, FMap.get_nil] at h1
  cases h3 : FMap.get h.objs a with
  | some m' => rw [h3] at h1; exact .inl ⟨m', h3, by cases h1; exact h2⟩
  | none =>
    rw [h3] at h1
    simp only [Option.none_or] at h1
    split at h1
    · rename_i e
      cases h1
      exact .inr ⟨e.symm, h2.symm⟩
    · cases h1

theorem newobj_holds {h : Heap} {c d : Cell} {a : Nat} (hh : Holds h a d) : Holds (newobj h c).1 a d := by
  obtain ⟨m, h1, h2⟩ := hh
  refine ⟨m, ?_, h2⟩
  simp only [newobj, alloc, FMap.get_append, h1]
  rfl

theorem Apart.setErr {vm : VM} (h : Apart fl P vm) (e : Err) : Apart fl P (setErr vm e) := ⟨h.up, h.stack, h.rest, h.frames, h.gsyms, h.other, h.cells, h.low⟩

theorem Apart.popN {vm : VM} (h : Apart fl P vm) (n : Nat) : Apart fl P (popN vm n) :=
  ⟨h.up, fun a ha => h.stack a (List.mem_of_mem_drop ha), h.rest, h.frames, h.gsyms, h.other, h.cells, h.low⟩

theorem Apart.pushAddr {vm : VM} (h : Apart fl P vm) {a : Nat} (ha : ¬ P a) : Apart fl P (pushAddr vm a) :=
  ⟨h.up, fun b hb => by rcases List.mem_cons.mp hb with rfl | hb; exacts [ha, h.stack b hb], h.rest, h.frames, h.gsyms, h.other, h.cells, h.low⟩

/-- A new object. -/
theorem Apart.newobj {vm : VM} (h : Apart fl P vm) {c : Cell} (hc : ∀ b ∈ children c, ¬ P b) :
    Sep fl P vm { vm with heap := (newobj vm.heap c).1 } ∧ ¬ P (newobj vm.heap c).2 := by
  refine ⟨⟨⟨h.up, h.stack, h.rest, h.frames, h.gsyms, h.other, ?_, fun a ha => Nat.lt_succ_of_lt (h.low a ha)⟩, fun a d _ hh => newobj_holds hh⟩,
    fun hp => absurd (h.low _ hp) (Nat.lt_irrefl _)⟩
  intro a d hd ha b hb
  rcases holds_newobj hd with h1 | ⟨_, rfl⟩
  · exact h.cells a d h1 ha b hb
  · exact hc b hb

theorem Apart.push {vm : VM} (h : Apart fl P vm) {c : Cell} (hc : ∀ b ∈ children c, ¬ P b) : Sep fl P vm (push vm c) := by
  obtain ⟨⟨h1, h2⟩, h3⟩ := h.newobj hc
  exact ⟨h1.pushAddr h3, h2⟩

theorem Apart.pushAtom {vm : VM} (h : Apart fl P vm) (o : Obj) : Sep fl P vm (VM.push vm (.atom o)) := h.push (fun _ hb => by cases hb)

/-- An object outside `P` gets another content. -/
theorem Apart.write {vm : VM} (h : Apart fl P vm) {a : Nat} (ha : ¬ P a) {c : Cell} (hc : ∀ b ∈ children c, ¬ P b) :
    Sep fl P vm { vm with heap := write vm.heap a c } := by
  refine ⟨⟨h.up, h.stack, h.rest, h.frames, h.gsyms, h.other, ?_, h.low⟩, ?_⟩
  · rintro x d ⟨m, h1, h2⟩ hx b hb
    rw [get_write] at h1
    split at h1
    · obtain ⟨m', _, h3⟩ := Option.map_eq_some_iff.mp h1
      rw [← h2, ← h3] at hb
      exact hc b hb
    · exact h.cells x d ⟨m, h1, h2⟩ hx b hb
  · rintro x d hp ⟨m, h1, h2⟩
    refine ⟨m, ?_, h2⟩
    rw [get_write, if_neg (fun e : x = a => ha (e ▸ hp)), h1]

/-- Only fields that hold no objects change. -/
theorem Apart.same {vm w : VM} (h : Apart fl P vm) (h1 : w.stack = vm.stack := by rfl) (h2 : w.rest = vm.rest := by rfl) (h3 : w.frames = vm.frames := by rfl)
    (h4 : w.gsyms = vm.gsyms := by rfl) (h5 : w.other = vm.other := by rfl) (h6 : w.heap = vm.heap := by rfl) : Sep fl P vm w :=
  ⟨⟨h2 ▸ h.up, h1 ▸ h.stack, h2 ▸ h.rest, h3 ▸ h.frames, h4 ▸ h.gsyms, h5 ▸ h.other, h6 ▸ h.cells, h6 ▸ h.low⟩, fun _ _ _ hh => h6 ▸ hh⟩

theorem Sep.setErr {u v : VM} (h : Sep fl P u v) (e : Err) : Sep fl P u (setErr v e) := ⟨h.1.setErr e, h.2⟩
theorem Sep.popN {u v : VM} (h : Sep fl P u v) (n : Nat) : Sep fl P u (popN v n) := ⟨h.1.popN n, h.2⟩
theorem Sep.pushAddr {u v : VM} (h : Sep fl P u v) {a : Nat} (ha : ¬ P a) : Sep fl P u (pushAddr v a) := ⟨h.1.pushAddr ha, h.2⟩
theorem Sep.push {u v : VM} (h : Sep fl P u v) {c : Cell} (hc : ∀ b ∈ children c, ¬ P b) : Sep fl P u (push v c) := h.trans (h.1.push hc)
theorem Sep.pushAtom {u v : VM} (h : Sep fl P u v) (o : Obj) : Sep fl P u (VM.push v (.atom o)) := h.trans (h.1.pushAtom o)

/-! ### Rules -/

theorem sep_need {vm v : VM} {n : Int} {k : Res VM} (h : Sep fl P vm v) (hk : SepR fl P vm k) : SepR fl P vm (need v n k) := by
  unfold need
  split
  · exact h.setErr _
  · exact hk

theorem sep_assert {vm v : VM} {k : VM → Res VM} (h : Sep fl P vm v) (hk : SepR fl P vm (k v)) : SepR fl P vm (assertPc v k) := by
  unfold assertPc
  split
  · exact h.setErr _
  · exact hk

theorem sep_inc {vm v : VM} {k : VM → Res VM} (h : Sep fl P vm v) (hk : ∀ w, Sep fl P vm w → SepR fl P vm (k w)) : SepR fl P vm (incPc v k) := by
  unfold incPc
  have := h.trans (h.1.same (w := { v with pc := v.pc + 1 }))
  exact sep_assert this (hk _ this)

theorem sep_ready {vm v : VM} {k : VM → Res VM} (h : Sep fl P vm v) (hk : SepR fl P vm (k v)) : SepR fl P vm (ifReady v k) := by
  unfold ifReady
  split
  · exact hk
  · exact h

theorem sep_arg {E : Env} {vm v : VM} {k : VM → Nat → Res VM} (h : Sep fl P vm v) (hk : ∀ w a, Sep fl P vm w → SepR fl P vm (k w a)) :
    SepR fl P vm (getArg E v k) := by
  unfold getArg
  split
  · exact h.setErr _
  · exact (Outcome.any _).bind (fun a _ => hk _ a (h.trans (h.1.same (w := { v with pc := v.pc + 4 }))))

theorem sep_then {vm : VM} {r : Res VM} {k : VM → Res VM} (h : SepR fl P vm r) (hk : ∀ w, Sep fl P vm w → SepR fl P vm (k w)) : SepR fl P vm (r >>= k) := h.bind hk

theorem sep_from {u v : VM} {r : Res VM} (h : Sep fl P u v) (hr : Apart fl P v → SepR fl P v r) : SepR fl P u r :=
  (hr h.1).mono (fun _ hx => h.trans hx) (fun _ h => h)

theorem sep_any {α : Type} {vm : VM} {r : Res α} {k : α → Res VM} (hk : ∀ x, SepR fl P vm (k x)) : SepR fl P vm (r >>= k) :=
  (Outcome.any r).bind (fun x _ => hk x)

theorem sep_eq {α : Type} {vm : VM} {r : Res α} {k : α → Res VM} (hk : ∀ x, r = .ok x → SepR fl P vm (k x)) : SepR fl P vm (r >>= k) := by
  cases r with
  | ok v => exact hk v rfl
  | ub => trivial
  | abort => trivial
  | hang => trivial

theorem peekAddr_mem {vm : VM} {i : Int} {a : Nat} (h : peekAddr vm i = .ok a) : a ∈ vm.stack := by
  unfold peekAddr at h
  split at h
  · split at h
    · rename_i x hx
      cases h
      exact List.mem_of_getElem? hx
    · cases h
  · cases h

theorem deref_holds {h : Heap} {a : Nat} {m : Marked} (hd : deref h a = .ok m) : Holds h a m.cell := by
  unfold deref at hd
  split at hd
  · rename_i x hx
    cases hd
    exact ⟨_, hx, rfl⟩
  · cases hd

theorem peekCell_mem {vm : VM} {i : Int} {c : Cell} (h : peekCell vm i = .ok c) : ∃ a ∈ vm.stack, peekAddr vm i = .ok a ∧ Holds vm.heap a c := by
  unfold peekCell at h
  obtain ⟨a, h1, h2⟩ := Res.bind_eq_ok.mp h
  obtain ⟨m, h3, h4⟩ := Res.bind_eq_ok.mp h2
  cases h4
  exact ⟨a, peekAddr_mem h1, h1, deref_holds h3⟩

theorem table_set_mem {V : Type} {sc : Bytes → Bytes → Int} {t t' : Table.Tbl V} {k : Obj} {v : V} (h : Table.set sc t k v = .ok t') :
    ∀ e ∈ Dict.entries t', e ∈ Dict.entries t ∨ e = (k, v) := by
  unfold Table.set at h
  obtain ⟨_, _, h⟩ := Res.bind_eq_ok.mp h
  obtain ⟨r, h1, h2⟩ := Res.bind_eq_ok.mp h
  cases h2
  by_cases hn : t.buckets.length = 0
  · unfold Dict.set Dict.slot at h1
    rw [if_pos hn] at h1
    cases h1
  · obtain ⟨r', h3, _, h4⟩ := dict_set_mem Table.hashN (Table.keq sc) hn k v
    rw [h1] at h3
    cases h3
    exact h4

theorem table_remove_mem {V : Type} {sc : Bytes → Bytes → Int} {t t' : Table.Tbl V} {k : Obj} (h : Table.remove sc t k = .ok t') :
    ∀ e ∈ Dict.entries t', e ∈ Dict.entries t := by
  unfold Table.remove at h
  obtain ⟨_, _, h⟩ := Res.bind_eq_ok.mp h
  obtain ⟨r, h1, h2⟩ := Res.bind_eq_ok.mp h
  cases h2
  by_cases hn : t.buckets.length = 0
  · unfold Dict.remove Dict.slot at h1
    rw [if_pos hn] at h1
    cases h1
  · obtain ⟨r', h3, _, h4⟩ := dict_remove_mem Table.hashN (Table.keq sc) hn k
    rw [h1] at h3
    cases h3
    exact h4

theorem table_get_mem {V : Type} {sc : Bytes → Bytes → Int} {t : Table.Tbl V} {k : Obj} {v : V} (h : Table.get sc t k = .ok (some v)) :
    ∃ e ∈ Dict.entries t, e.2 = v := by
  unfold Table.get at h
  obtain ⟨_, _, h⟩ := Res.bind_eq_ok.mp h
  by_cases hn : t.buckets.length = 0
  · unfold Dict.rawget Dict.slot at h
    rw [if_pos hn] at h
    cases h
  · obtain ⟨r', h3, h4⟩ := dict_rawget_mem Table.hashN (Table.keq sc) hn k
    rw [h] at h3
    cases h3
    exact h4 v rfl

theorem tab_child {t : Table.Tbl (Nat × Nat)} {e : Obj × (Nat × Nat)} (he : e ∈ Dict.entries t) : e.2.1 ∈ children (.tab t) ∧ e.2.2 ∈ children (.tab t) := by
  simp only [children, List.mem_flatMap]
  exact ⟨⟨e, he, by simp⟩, ⟨e, he, by simp⟩⟩

theorem tab_children {t : Table.Tbl (Nat × Nat)} (h : ∀ e ∈ Dict.entries t, ¬ P e.2.1 ∧ ¬ P e.2.2) : ∀ b ∈ children (.tab t), ¬ P b := by
  intro b hb
  simp only [children, List.mem_flatMap] at hb
  obtain ⟨e, he, hb⟩ := hb
  simp only [List.mem_cons, List.not_mem_nil, or_false] at hb
  rcases hb with rfl | rfl
  · exact (h e he).1
  · exact (h e he).2

/-! ### Instructions -/

theorem binop_sep {E : Env} {b : Bin} {vm : VM} (h : Apart fl P vm) : SepR fl P vm (binop E b vm) := by
  unfold binop
  refine sep_need (.refl h) (sep_any fun x => sep_any fun y => ?_)
  split
  · exact (show Sep fl P vm (if binKeep b then vm else popN vm 2) by split; exacts [.refl h, (Sep.refl h).popN 2]).setErr _
  · exact sep_any fun v => ((Sep.refl h).popN 2).pushAtom v

theorem unop_sep {u : Un} {vm : VM} (h : Apart fl P vm) : SepR fl P vm (unop u vm) := by
  unfold unop
  refine sep_need (.refl h) (sep_any fun x => ?_)
  split
  · exact (show Sep fl P vm (if unKeep u then vm else popN vm 1) by split; exacts [.refl h, (Sep.refl h).popN 1]).setErr _
  · exact sep_any fun v => ((Sep.refl h).popN 1).pushAtom v

theorem pop_sep {vm : VM} (h : Apart fl P vm) : Sep fl P vm (pop vm) := by
  unfold pop
  split
  exacts [(Sep.refl h).setErr _, (Sep.refl h).popN 1]

theorem dup_sep {vm : VM} (h : Apart fl P vm) : Sep fl P vm (dup vm) := by
  unfold dup
  split
  · exact (Sep.refl h).setErr _
  · rename_i a l e
    exact (Sep.refl h).pushAddr (h.stack a (by rw [e]; exact List.mem_cons_self ..))

theorem pushC_sep {vm : VM} (h : Apart fl P vm) (r : Int) (n : Bool) : Sep fl P vm (pushC vm r n) := by
  obtain ⟨s1, c1⟩ := h.newobj (c := .clo n r []) (fun _ hb => by cases hb)
  obtain ⟨s2, c2⟩ := s1.1.newobj (c := .atom .nil) (fun _ hb => by cases hb)
  have s3 := s2.1.write c1 (c := .clo n r [(newobj (newobj vm.heap (.clo n r [])).1 (.atom .nil)).2]) (fun b hb => by
    simp only [children, List.mem_singleton] at hb
    subst hb
    exact c2)
  exact ((s1.trans s2).trans s3).pushAddr c1

theorem pushS_sep {vm : VM} (h : Apart fl P vm) (a : Nat) : Sep fl P vm (pushS vm a) := by
  unfold pushS
  split
  exacts [h.pushAtom _, (Sep.refl h).setErr _]

theorem pushL_sep {vm : VM} (h : Apart fl P vm) (r : Int) : Sep fl P vm (pushL vm r) := by
  unfold pushL
  split
  · rename_i f fs e
    exact h.push (h.frames f (by rw [e]; exact List.mem_cons_self ..))
  · exact pushC_sep h _ _

theorem pushT_sep {vm : VM} (h : Apart fl P vm) : Sep fl P vm (pushT vm) := h.push (tab_children (fun e he => by simp [Table.new, Dict.entries_new] at he))

theorem tput_sep {E : Env} {vm : VM} (h : Apart fl P vm) : SepR fl P vm (tput E vm) := by
  unfold tput
  refine sep_need (.refl h) (sep_eq fun ta e1 => sep_eq fun tc e2 => ?_)
  have pa := h.stack ta (peekAddr_mem e1)
  obtain ⟨ta', _, e1', hta⟩ := peekCell_mem e2
  rw [e1] at e1'
  cases e1'
  split
  · rename_i t
    have hold : ∀ e ∈ Dict.entries t, ¬ P e.2.1 ∧ ¬ P e.2.2 := fun e he =>
      ⟨h.cells _ _ hta pa _ (tab_child he).1, h.cells _ _ hta pa _ (tab_child he).2⟩
    refine sep_eq fun va e3 => sep_eq fun vc e4 => sep_eq fun ka e5 => sep_any fun k => ?_
    have pv := h.stack va (peekAddr_mem e3)
    have pk := h.stack ka (peekAddr_mem e5)
    obtain ⟨va', _, e3', hva⟩ := peekCell_mem e4
    rw [e3] at e3'
    cases e3'
    have s0 := (Sep.refl h).popN 3
    dsimp only
    split
    · split
      · refine sep_eq fun t' e => s0.trans (s0.1.write pa (tab_children fun x hx => hold x (table_remove_mem e x hx)))
      · rename_i n r l
        refine sep_eq fun t' e => ?_
        obtain ⟨s1, c1⟩ := s0.1.newobj (c := .clo n r (ta :: l.tail)) (fun b hb => by
          simp only [children, List.mem_cons] at hb
          rcases hb with rfl | hb
          · exact pa
          · exact h.cells _ _ hva pv b (List.mem_of_mem_tail hb))
        refine s0.trans (s1.trans (s1.1.write pa (tab_children fun x hx => ?_)))
        rcases table_set_mem e x hx with hx | rfl
        · exact hold x hx
        · exact ⟨pk, c1⟩
      · refine sep_eq fun t' e => s0.trans (s0.1.write pa (tab_children fun x hx => ?_))
        rcases table_set_mem e x hx with hx | rfl
        · exact hold x hx
        · exact ⟨pk, pv⟩
    · exact s0.setErr _
  · exact (Sep.refl h).setErr _

theorem tget_sep {E : Env} {vm : VM} (h : Apart fl P vm) : SepR fl P vm (tget E vm) := by
  unfold tget
  refine sep_need (.refl h) (sep_eq fun tc e2 => ?_)
  obtain ⟨ta, ma, _, hta⟩ := peekCell_mem e2
  have pa := h.stack ta ma
  split
  · refine sep_any fun k => ?_
    split
    · refine sep_eq fun r e => ?_
      split
      · obtain ⟨x, hx, rfl⟩ := table_get_mem e
        exact ((Sep.refl h).popN 2).pushAddr (h.cells _ _ hta pa _ (tab_child hx).2)
      · exact ((Sep.refl h).popN 2).pushAtom _
    · trivial
  · exact (Sep.refl h).setErr _

theorem gload_sep {vm : VM} (h : Apart fl P vm) : SepR fl P vm (gload vm) := by
  unfold gload
  refine sep_need (.refl h) (sep_any fun s => ?_)
  split
  · split
    · rename_i a e
      exact ((Sep.refl h).popN 1).pushAddr (h.gsyms _ (FMap.mem_of_get e))
    · exact ((Sep.refl h).popN 1).pushAtom _
  · exact (Sep.refl h).setErr _

theorem gstore_sep {vm : VM} (h : Apart fl P vm) : SepR fl P vm (gstore vm) := by
  unfold gstore
  refine sep_need (.refl h) (sep_any fun s => ?_)
  split
  · rename_i sid _
    refine sep_eq fun a e => ?_
    have s := (Sep.refl h).popN 2
    refine ⟨⟨s.1.up, s.1.stack, s.1.rest, s.1.frames, fun x hx => ?_, s.1.other, s.1.cells, s.1.low⟩, s.2⟩
    rcases FMap.mem_set.mp hx with hx | rfl
    · exact h.gsyms x hx.1
    · exact h.stack a (peekAddr_mem e)
  · exact (Sep.refl h).setErr _

theorem lload_sep {vm : VM} (h : Apart fl P vm) (n : Nat) : SepR fl P vm (lload vm n) := by
  unfold lload
  split
  · trivial
  · rename_i f fs e
    split
    · exact (Sep.refl h).setErr _
    · split
      · rename_i a ha
        exact (Sep.refl h).pushAddr (h.frames f (by rw [e]; exact List.mem_cons_self ..) a (List.mem_of_getElem? ha))
      · trivial

theorem Apart.setFrame {vm : VM} (h : Apart fl P vm) {f : Frame} {fs : List Frame} (e : vm.frames = f :: fs) {l : List Nat} (hl : ∀ a ∈ l, ¬ P a) :
    Apart fl P { vm with frames := { f with syms := l } :: fs } :=
  ⟨h.up, h.stack, h.rest, fun g hg => by
    rcases List.mem_cons.mp hg with rfl | hg
    · exact hl
    · exact h.frames g (by rw [e]; exact List.mem_cons_of_mem _ hg), h.gsyms, h.other, h.cells, h.low⟩

theorem lstore_sep {vm : VM} (h : Apart fl P vm) (n : Nat) : SepR fl P vm (lstore vm n) := by
  unfold lstore
  refine sep_need (.refl h) (sep_eq fun a e => ?_)
  have pa := h.stack a (peekAddr_mem e)
  split
  · trivial
  · rename_i f fs e
    have hf := h.frames f (by rw [e]; exact List.mem_cons_self ..)
    have s := (Sep.refl h).popN 1
    split
    · exact ⟨s.1.setFrame e (fun b hb => by rcases List.mem_or_eq_of_mem_set hb with hb | rfl; exacts [hf b hb, pa]), s.2⟩
    · split
      · exact ⟨s.1.setFrame e (fun b hb => by
          rcases List.mem_append.mp hb with hb | hb
          · exact hf b hb
          · rw [List.mem_singleton] at hb
            subst hb
            exact pa), s.2⟩
      · trivial

theorem lremove_sep {vm : VM} (h : Apart fl P vm) (n : Nat) : SepR fl P vm (lremove vm n) := by
  unfold lremove
  split
  · trivial
  · rename_i f fs e
    have hf := h.frames f (by rw [e]; exact List.mem_cons_self ..)
    have s : Sep fl P vm { vm with frames := { f with syms := f.syms.take (f.syms.length - n) } :: fs } :=
      ⟨h.setFrame e (fun a ha => hf a (List.mem_of_mem_take ha)), fun _ _ _ h => h⟩
    dsimp only
    split
    · exact s.setErr _
    · exact s

theorem Down.same {vm w : VM} (h : Down fl P vm) (h2 : w.rest = vm.rest := by rfl) (h3 : w.frames = vm.frames := by rfl) (h4 : w.gsyms = vm.gsyms := by rfl)
    (h5 : w.other = vm.other := by rfl) (h6 : w.heap = vm.heap := by rfl) : Gone fl P vm w :=
  ⟨⟨h2 ▸ h.down, h3 ▸ h.frames, h4 ▸ h.gsyms, h5 ▸ h.other, h6 ▸ h.cells, h6 ▸ h.low⟩, fun _ _ _ hh => h6 ▸ hh⟩

theorem Gone.trans {u v w : VM} (a : Gone fl P u v) (b : Gone fl P v w) : Gone fl P u w := ⟨b.1, fun x c hp h => b.2 x c hp (a.2 x c hp h)⟩

theorem Sep.gone {u v w : VM} (a : Sep fl P u v) (b : Gone fl P v w) : Gone fl P u w := ⟨b.1, fun x c hp h => b.2 x c hp (a.2 x c hp h)⟩

theorem Down.pushAtom {vm : VM} (h : Down fl P vm) (o : Obj) : Gone fl P vm (VM.push vm (.atom o)) := by
  refine ⟨⟨h.down, h.frames, h.gsyms, h.other, ?_, fun a ha => Nat.lt_succ_of_lt (h.low a ha)⟩, fun a d _ hh => newobj_holds hh⟩
  intro a d hd ha b hb
  rcases holds_newobj hd with h1 | ⟨_, rfl⟩
  · exact h.cells a d h1 ha b hb
  · cases hb

/-! #### Rules for computations that may return -/

theorem tl_of {vm : VM} {r : Res VM} (h : SepR fl P vm r) : SepT fl P vm r := h.mono (fun _ h => .inl h) (fun _ h => h)

theorem tl_need {vm v : VM} {n : Int} {k : Res VM} (h : Sep fl P vm v) (hk : SepT fl P vm k) : SepT fl P vm (need v n k) := by
  unfold need
  split
  · exact Or.inl (h.setErr _)
  · exact hk

theorem tl_inc {vm v : VM} {k : VM → Res VM} (h : Sep fl P vm v) (hk : ∀ w, Sep fl P vm w → SepT fl P vm (k w)) : SepT fl P vm (incPc v k) := by
  unfold incPc assertPc
  have := h.trans (h.1.same (w := { v with pc := v.pc + 1 }))
  split
  · exact Or.inl (this.setErr _)
  · exact hk _ this

theorem tl_then {vm : VM} {r : Res VM} {k : VM → Res VM} (h : SepR fl P vm r) (hk : ∀ w, Sep fl P vm w → SepT fl P vm (k w)) : SepT fl P vm (r >>= k) := h.bind hk

theorem tl_from {u v : VM} {r : Res VM} (h : Sep fl P u v) (hr : Apart fl P v → SepT fl P v r) : SepT fl P u r :=
  (hr h.1).mono (fun _ hx => hx.imp h.trans h.gone) (fun _ h => h)

theorem tl_any {α : Type} {vm : VM} {r : Res α} {k : α → Res VM} (hk : ∀ x, SepT fl P vm (k x)) : SepT fl P vm (r >>= k) :=
  (Outcome.any r).bind (fun x _ => hk x)

theorem tl_eq {α : Type} {vm : VM} {r : Res α} {k : α → Res VM} (hk : ∀ x, r = .ok x → SepT fl P vm (k x)) : SepT fl P vm (r >>= k) := by
  cases r with
  | ok v => exact hk v rfl
  | ub => trivial
  | abort => trivial
  | hang => trivial

/-- Changes of the machine after which it is still the same in what matters here. -/
theorem tl_same {vm v w : VM} (h : Sep fl P vm v ∨ Gone fl P vm v) (h1 : w.stack = v.stack := by rfl) (h2 : w.rest = v.rest := by rfl) (h3 : w.frames = v.frames := by rfl)
    (h4 : w.gsyms = v.gsyms := by rfl) (h5 : w.other = v.other := by rfl) (h6 : w.heap = v.heap := by rfl) : Sep fl P vm w ∨ Gone fl P vm w := by
  rcases h with h | h
  · exact .inl (h.trans (h.1.same h1 h2 h3 h4 h5 h6))
  · exact .inr (h.trans (h.1.same h2 h3 h4 h5 h6))

/-- What follows a return. -/
theorem tl_end {vm : VM} {r : Res VM} (h : SepT fl P vm r) : SepT fl P vm (r >>= fun vm => ifReady vm (fun vm => assertPc vm pure)) := by
  refine h.bind fun w s => ?_
  unfold ifReady assertPc
  split
  · dsimp only
    split
    · exact tl_same s
    · exact s
  · exact s

/-- Without a floor nothing can be below it. -/
theorem SepT.strict {vm : VM} {r : Res VM} (h : SepT 0 P vm r) : SepR 0 P vm r :=
  h.mono (fun _ h => h.resolve_right (fun g => absurd g.1.down (Nat.not_lt_zero _))) (fun _ h => h)

theorem retTo_sep {u vm : VM} {k : VM → VM} (h : Sep fl P u vm ∨ Gone fl P u vm) (hk : ∀ v, Sep fl P u v ∨ Gone fl P u v → Sep fl P u (k v) ∨ Gone fl P u (k v)) :
    SepT fl P u (retTo vm k) := by
  unfold retTo need
  split
  · exact tl_same h
  · refine tl_any fun x => ?_
    split
    · rename_i v
      refine hk _ ?_
      rcases h with h | h
      · exact .inl ((h.popN 1).trans ((h.popN 1).1.same (w := { popN vm 1 with pc := v })))
      · exact .inr (h.trans (h.1.same (w := { popN vm 1 with pc := v })))
    · exact tl_same h

theorem Apart.leave {vm : VM} (h : Apart fl P vm) {f : Frame} {fs : List Frame} {s : List Nat} {r : List (List Nat)} (e1 : vm.frames = f :: fs)
    (e2 : vm.rest = s :: r) (w : List Nat) : Sep fl P vm { vm with swarmstack := w, frames := fs, stack := s, rest := r } ∨
      Gone fl P vm { vm with swarmstack := w, frames := fs, stack := s, rest := r } := by
  have hf : ∀ x ∈ fs, ∀ a ∈ x.syms, ¬ P a := fun x hx => h.frames x (by rw [e1]; exact List.mem_cons_of_mem _ hx)
  have hr := h.rest
  have hu := h.up
  rw [e2] at hr hu
  by_cases hl : fl ≤ r.length
  · rw [show (s :: r).length - fl = (r.length - fl) + 1 by simp only [List.length_cons]; omega, List.take_succ_cons] at hr
    exact .inl ⟨⟨hl, hr s (List.mem_cons_self ..), fun x hx => hr x (List.mem_cons_of_mem _ hx), hf, h.gsyms, h.other, h.cells, h.low⟩, fun _ _ _ h => h⟩
  · exact .inr ⟨⟨by show r.length < fl; omega, hf, h.gsyms, h.other, h.cells, h.low⟩, fun _ _ _ h => h⟩

theorem ret0_sep {vm : VM} (h : Apart fl P vm) : SepT fl P vm (ret0 vm) := by
  unfold ret0
  split
  · rename_i f fs s r e1 e2
    exact retTo_sep (h.leave e1 e2 _) (fun v s => s.imp (fun s => s.pushAtom _) (fun s => s.trans (s.1.pushAtom _)))
  · trivial

theorem ret1_sep {vm : VM} (h : Apart fl P vm) : SepT fl P vm (ret1 vm) := by
  unfold ret1
  split
  · trivial
  · rename_i f fs e1
    dsimp only
    have s0 : Sep fl P vm { vm with swarmstack := if f.swarm then vm.swarmstack.tail else vm.swarmstack, frames := fs } :=
      ⟨⟨h.up, h.stack, h.rest, fun x hx => h.frames x (by rw [e1]; exact List.mem_cons_of_mem _ hx), h.gsyms, h.other, h.cells, h.low⟩, fun _ _ _ h => h⟩
    refine tl_need s0 (tl_eq fun a e => ?_)
    have pa := h.stack a (peekAddr_mem e)
    split
    · trivial
    · rename_i s r e2
      exact retTo_sep (h.leave e1 e2 _) (fun v s => s.imp (fun s => s.pushAddr pa) (fun s => s.trans (s.1.same (w := VM.pushAddr v a))))

theorem jumpIf_sep {vm : VM} (h : Apart fl P vm) (b : Bool) (a : Nat) : SepR fl P vm (jumpIf vm b a) := by
  unfold jumpIf
  refine sep_need (.refl h) (sep_any fun x => ?_)
  split
  · have s := h.same (w := { vm with pc := intOfU32 a })
    exact sep_assert s (s.trans (pop_sep s.1))
  · exact pop_sep h

theorem enter_sep {vm : VM} (h : Apart fl P vm) (n : Nat) {l : List Nat} (hl : ∀ a ∈ l, ¬ P a) (sw : Bool) : Sep fl P vm (enter vm n l sw) := by
  have s1 : Sep fl P vm { vm with frames := ⟨l ++ (vm.stack.take n).reverse, sw⟩ :: vm.frames, stack := vm.stack.drop (n + 2) } := by
    refine ⟨⟨h.up, fun a ha => h.stack a (List.mem_of_mem_drop ha), h.rest, fun f hf a ha => ?_, h.gsyms, h.other, h.cells, h.low⟩, fun _ _ _ h => h⟩
    rcases List.mem_cons.mp hf with rfl | hf
    · rcases List.mem_append.mp ha with ha | ha
      · exact hl a ha
      · exact h.stack a (List.mem_of_mem_take (List.mem_reverse.mp ha))
    · exact h.frames f hf a ha
  have s2 := s1.pushAtom (.int vm.pc)
  have hup := h.up
  refine ⟨⟨Nat.le_succ_of_le hup, fun a ha => (by cases ha), fun s hs a ha => ?_, s2.1.frames, s2.1.gsyms, s2.1.other, s2.1.cells, s2.1.low⟩, s2.2⟩
  have e : (enter vm n l sw).rest.length - fl = (vm.rest.length - fl) + 1 := by
    show vm.rest.length + 1 - fl = _
    omega
  rw [e] at hs
  rcases List.mem_cons.mp hs with rfl | hs
  · exact s2.1.stack a ha
  · exact h.rest s hs a ha

theorem call_sep {F : CFuns} (hF : FApart F) {vm : VM} (h : Apart fl P vm) (sw : Bool) : SepT fl P vm (call F sw vm) := by
  unfold call
  refine tl_need (.refl h) (tl_any fun x => ?_)
  split
  · rename_i argn
    have s := (Sep.refl h).popN 1
    dsimp only
    split
    · trivial
    · refine tl_need s (tl_eq fun c e => ?_)
      obtain ⟨a, ma, _, ha⟩ := peekCell_mem e
      have pa := s.1.stack a ma
      split
      · rename_i native ref actrec
        split
        · exact Or.inl (s.setErr _)
        · have s2 := s.trans (enter_sep s.1 argn.toNat (l := actrec) (fun b hb => s.1.cells _ _ ha pa b hb) sw)
          split
          · exact Or.inl (s2.trans (s2.1.same (w := { enter (popN vm 1) argn.toNat actrec sw with pc := ref })))
          · split
            · trivial
            · exact tl_from s2 (hF _ _ _ _)
      · exact Or.inl (s.setErr _)
  · exact Or.inl ((Sep.refl h).setErr _)

theorem exec_sep {E : Env} {F : CFuns} (hF : FApart F) {vm : VM} (h : Apart fl P vm) (op : Op) : SepT fl P vm (exec E F vm op) := by
  have r := Sep.refl h
  cases op with
  | nop => exact tl_of (sep_inc r (fun _ h => h))
  | done => exact Or.inl (h.same (w := { vm with state := .done }))
  | pushnil => exact tl_of (sep_inc r (fun w h => h.pushAtom _))
  | dup => exact tl_of (sep_inc r (fun w h => h.trans (dup_sep h.1)))
  | pop => exact tl_of (sep_ready (k := fun vm => incPc vm pure) (pop_sep h) (sep_inc (v := VM.pop vm) (k := pure) (pop_sep h) (fun _ h => h)))
  | ret0 => exact tl_end (ret0_sep h)
  | ret1 => exact tl_end (ret1_sep h)
  | bin b => exact tl_of (sep_then (binop_sep h) (fun w h => sep_inc h (fun _ h => h)))
  | un u => exact tl_of (sep_then (unop_sep h) (fun w h => sep_inc h (fun _ h => h)))
  | gload => exact tl_of (sep_inc r (fun w h => sep_from h gload_sep))
  | gstore => exact tl_of (sep_inc r (fun w h => sep_from h gstore_sep))
  | pusht => exact tl_of (sep_inc (v := pushT vm) (k := pure) (pushT_sep h) (fun _ h => h))
  | tput => exact tl_of (sep_then (tput_sep h) (fun w h => sep_ready h (sep_inc h (fun _ h => h))))
  | tget => exact tl_of (sep_then (tget_sep h) (fun w h => sep_ready h (sep_inc h (fun _ h => h))))
  | callc => exact tl_inc r (fun w h => tl_end (tl_from h (fun h => call_sep hF h false)))
  | calls => exact tl_inc r (fun w h => tl_end (tl_from h (fun h => call_sep hF h true)))
  | pushf => exact tl_of (sep_inc r (fun w h => sep_arg h (fun x a h => h.pushAtom _)))
  | pushi => exact tl_of (sep_inc r (fun w h => sep_arg h (fun x a h => h.pushAtom _)))
  | pushs => exact tl_of (sep_inc r (fun w h => sep_arg h (fun x a h => h.trans (pushS_sep h.1 a))))
  | pushcn => exact tl_of (sep_inc r (fun w h => sep_arg h (fun x a h => h.trans (pushC_sep h.1 _ _))))
  | pushcc => exact tl_of (sep_inc r (fun w h => sep_arg h (fun x a h => h.trans (pushC_sep h.1 _ _))))
  | pushl => exact tl_of (sep_inc r (fun w h => sep_arg h (fun x a h => h.trans (pushL_sep h.1 _))))
  | lload => exact tl_of (sep_inc r (fun w h => sep_arg h (fun x a h => sep_from h (fun h => lload_sep h a))))
  | lstore => exact tl_of (sep_inc r (fun w h => sep_arg h (fun x a h => sep_from h (fun h => lstore_sep h a))))
  | lremove => exact tl_of (sep_inc r (fun w h => sep_arg h (fun x a h => sep_from h (fun h => lremove_sep h a))))
  | jump => refine tl_of (sep_inc r (fun w h => sep_arg h (fun x a h => by
      have := h.trans (h.1.same (w := { x with pc := intOfU32 a }))
      exact sep_assert this this)))
  | jumpz => exact tl_of (sep_inc r (fun w h => sep_arg h (fun x a h => sep_from h (fun h => jumpIf_sep h _ a))))
  | jumpnz => exact tl_of (sep_inc r (fun w h => sep_arg h (fun x a h => sep_from h (fun h => jumpIf_sep h _ a))))

/-! ### Collections and steps -/

/-- Nothing of the heap is made up by a collection. -/
theorem collect_sep {vm : VM} (i : VInv vm) (h : Apart fl P vm) : ∃ w, collect vm = .ok w ∧ Apart fl P w ∧ VInv w ∧ w.other = vm.other ∧
    ∀ a c, Holds vm.heap a c → Reach vm.heap (roots vm).Mem a → Holds w.heap a c := by
  obtain ⟨h', sm', e, iv, h1, h2, _⟩ := collect_spec i
  refine ⟨_, e, ⟨h.up, h.stack, h.rest, h.frames, h.gsyms, h.other, fun a c hc => h.cells a c (h1 a c hc), ?_⟩, iv, rfl, h2⟩
  have hb : h'.brk = vm.heap.brk := by
    by_cases hfull : vm.heap.maxObjs ≤ vm.heap.objs.length
    · obtain ⟨h'', sm'', g1, _, _, g2, _⟩ := gc_spec i.heap i.strings (fun a ha => holds_isSome.mpr (i.roots a ha)) hfull
      simp only [collect, g1, Res.ok_bind, Res.pure_eq, Res.ok.injEq, VM.mk.injEq] at e
      rw [← e.2.2.2.2.2.2.2.2.2.1]
      exact g2
    · unfold collect gc at e
      rw [if_pos (by omega)] at e
      simp only [Res.ok_bind, Res.pure_eq, Res.ok.injEq, VM.mk.injEq] at e
      rw [← e.2.2.2.2.2.2.2.2.2.1]
  exact fun a ha => hb ▸ h.low a ha

/-! ### Library functions about broadcasts -/

theorem listen_sep {vm : VM} (h : Apart fl P vm) : SepT fl P vm (neighborsListen vm) := by
  unfold neighborsListen
  split
  · trivial
  · split
    · exact Or.inl ((Sep.refl h).setErr _)
    · refine tl_then (lload_sep h 1) fun v s => tl_any fun t => ?_
      split
      · refine tl_then (sep_from s fun h => lload_sep h 2) fun v s => tl_any fun c => ?_
        split
        · refine tl_eq fun a e => tl_from (v := { v with other := { v.other with listeners := FMap.set v.other.listeners _ a } }) ?_ ret0_sep
          refine ⟨⟨s.1.up, s.1.stack, s.1.rest, s.1.frames, s.1.gsyms, fun b hb => ?_, s.1.cells, s.1.low⟩, s.2⟩
          rcases hb with hb | ⟨x, hx, rfl⟩
          · exact s.1.other b (.inl hb)
          · rcases FMap.mem_set.mp hx with hx | rfl
            · exact s.1.other _ (.inr ⟨x, hx.1, rfl⟩)
            · exact s.1.stack a (peekAddr_mem e)
        · exact Or.inl (s.setErr _)
      · exact Or.inl (s.setErr _)

theorem ignore_sep {vm : VM} (h : Apart fl P vm) : SepT fl P vm (neighborsIgnore vm) := by
  unfold neighborsIgnore
  split
  · trivial
  · split
    · exact Or.inl ((Sep.refl h).setErr _)
    · refine tl_then (lload_sep h 1) fun v s => tl_any fun t => ?_
      split
      · rename_i sid _
        refine tl_from (v := { v with other := { v.other with listeners := FMap.del v.other.listeners sid } }) ?_ ret0_sep
        refine ⟨⟨s.1.up, s.1.stack, s.1.rest, s.1.frames, s.1.gsyms, fun b hb => ?_, s.1.cells, s.1.low⟩, s.2⟩
        rcases hb with hb | ⟨x, hx, rfl⟩
        · exact s.1.other b (.inl hb)
        · exact s.1.other _ (.inr ⟨x, (FMap.mem_del.mp hx).1, rfl⟩)
      · exact Or.inl (s.setErr _)

/-- The heap part of `Apart`. -/
structure HApart (P : Nat → Prop) (h : Heap) : Prop where
  cells : ∀ a c, Holds h a c → ¬ P a → ∀ b ∈ children c, ¬ P b
  low : ∀ a, P a → a < h.brk

/-- The heap part of `Sep`. -/
def HSep (P : Nat → Prop) (h h' : Heap) : Prop := HApart P h' ∧ ∀ a c, P a → Holds h a c → Holds h' a c

theorem HSep.trans {h h' h'' : Heap} (a : HSep P h h') (b : HSep P h' h'') : HSep P h h'' := ⟨b.1, fun x c hp hh => b.2 x c hp (a.2 x c hp hh)⟩

theorem alloc_sep {h : Heap} (ha : HApart P h) (mk : Nat) {c : Cell} (hc : ∀ b ∈ children c, ¬ P b) : HSep P h (alloc h mk c).1 ∧ ¬ P h.brk := by
  refine ⟨⟨⟨?_, fun a hp => Nat.lt_succ_of_lt (ha.low a hp)⟩, ?_⟩, fun hp => absurd (ha.low _ hp) (Nat.lt_irrefl _)⟩
  · rintro a d ⟨m, h1, h2⟩ hp b hb
    simp only [alloc, FMap.get_append, FMap.get_cons, FMap.get_nil] at h1
    cases h3 : FMap.get h.objs a with
    | some m' => rw [h3] at h1; exact ha.cells a d ⟨m', h3, by cases h1; exact h2⟩ hp b hb
    | none =>
      rw [h3] at h1
      simp only [Option.none_or] at h1
      split at h1
      · cases h1
        exact hc b (by rw [← h2] at hb; exact hb)
      · cases h1
  · rintro a d _ ⟨m, h1, h2⟩
    refine ⟨m, ?_, h2⟩
    simp only [alloc, FMap.get_append, h1]
    rfl

theorem hwrite_sep {h : Heap} (ha : HApart P h) {a : Nat} (hp : ¬ P a) {c : Cell} (hc : ∀ b ∈ children c, ¬ P b) : HSep P h (write h a c) := by
  refine ⟨⟨?_, ha.low⟩, ?_⟩
  · rintro x d ⟨m, h1, h2⟩ hx b hb
    rw [get_write] at h1
    split at h1
    · obtain ⟨m', _, h3⟩ := Option.map_eq_some_iff.mp h1
      rw [← h2, ← h3] at hb
      exact hc b hb
    · exact ha.cells x d ⟨m, h1, h2⟩ hx b hb
  · rintro x d hp' ⟨m, h1, h2⟩
    refine ⟨m, ?_, h2⟩
    rw [get_write, if_neg (fun e : x = a => hp (e ▸ hp')), h1]

/-- Cloning something outside `P`. -/
theorem clone_sep {sc : Bytes → Bytes → Int} : ∀ (fuel : Nat) (h : Heap) (a : Nat) (h' : Heap) (b : Nat), HApart P h → ¬ P a →
    clone sc fuel h a = .ok (h', b) → HSep P h h' ∧ ¬ P b
  | 0, _, _, _, _, _, _, e => by cases e
  | fuel + 1, h, a, h', b, ha, pa, e => by
    unfold clone at e
    obtain ⟨m, e1, e⟩ := Res.bind_eq_ok.mp e
    have hm := deref_holds e1
    split at e
    · rename_i t hc
      obtain ⟨r, e2, e⟩ := Res.bind_eq_ok.mp e
      simp only [Res.pure_eq, Res.ok.injEq, Prod.mk.injEq] at e
      obtain ⟨rfl, rfl⟩ := e
      have hch : ∀ e ∈ Dict.entries t, ¬ P e.2.1 ∧ ¬ P e.2.2 := fun x hx => by
        rw [hc] at hm
        exact ⟨ha.cells _ _ hm pa _ (tab_child hx).1, ha.cells _ _ hm pa _ (tab_child hx).2⟩
      obtain ⟨s0, pb⟩ := alloc_sep ha m.mark (c := .tab (Dict.new t.buckets.length)) (tab_children fun x hx => by simp [Dict.entries_new] at hx)
      have loop : ∀ (es : List (Obj × (Nat × Nat))) (p r : Heap × Table.Tbl (Nat × Nat)), (∀ e ∈ es, ¬ P e.2.1 ∧ ¬ P e.2.2) → HApart P p.1 →
          (∀ e ∈ Dict.entries p.2, ¬ P e.2.1 ∧ ¬ P e.2.2) → es.foldlM (Heap.elem sc fuel) p = .ok r →
          HSep P p.1 r.1 ∧ ∀ e ∈ Dict.entries r.2, ¬ P e.2.1 ∧ ¬ P e.2.2 := by
        intro es
        induction es with
        | nil => intro p r _ hp ht e; cases e; exact ⟨⟨hp, fun _ _ _ h => h⟩, ht⟩
        | cons x es ih =>
          intro p r hes hp ht e
          rw [List.foldlM_cons] at e
          obtain ⟨q, e3, e4⟩ := Res.bind_eq_ok.mp e
          unfold Heap.elem at e3
          obtain ⟨⟨h1, k⟩, f1, e3⟩ := Res.bind_eq_ok.mp e3
          obtain ⟨⟨h2, d⟩, f2, e3⟩ := Res.bind_eq_ok.mp e3
          obtain ⟨kc, f3, e3⟩ := Res.bind_eq_ok.mp e3
          obtain ⟨t', f4, e3⟩ := Res.bind_eq_ok.mp e3
          cases e3
          have hx := hes x (List.mem_cons_self ..)
          obtain ⟨s1, p1⟩ := clone_sep fuel _ _ _ _ hp hx.1 f1
          obtain ⟨s2, p2⟩ := clone_sep fuel _ _ _ _ s1.1 hx.2 f2
          obtain ⟨s3, p3⟩ := ih _ _ (fun y hy => hes y (List.mem_cons_of_mem _ hy)) s2.1 (fun y hy => by
            rcases table_set_mem f4 y hy with hy | rfl
            · exact ht y hy
            · exact ⟨p1, p2⟩) e4
          exact ⟨(s1.trans s2).trans s3, p3⟩
      obtain ⟨s1, p1⟩ := loop _ _ _ hch s0.1 (fun x hx => by simp [Dict.entries_new] at hx) e2
      exact ⟨(s0.trans s1).trans (hwrite_sep s1.1 pb (tab_children p1)), pb⟩
    · rename_i hc
      cases e
      exact alloc_sep ha _ (fun b hb => ha.cells _ _ hm pa b hb)

end Buzz.VM
