import Verif.HeapClone
import Verif.Props.Strings
import Verif.Props.Compare

/-
C08 (collection is exact), C09 (any history, marker wraparound), C10 (clone) and C55 (string objects keep their characters).
-/
namespace Buzz.Props

open Buzz.Heap Buzz.Msg

/-! ## C08 -/

/-- The object at `a` has content `c`. -/
def Holds (h : Heap) (a : Nat) (c : Cell) : Prop := ∃ m, FMap.get h.objs a = some m ∧ m.cell = c

theorem holds_iff {h : Heap} (ok : FMap.Ok h.objs) {a : Nat} {c : Cell} : Holds h a c ↔ (a, c) ∈ contents h := by
  unfold Holds contents
  rw [List.mem_map]
  constructor
  · rintro ⟨m, h1, h2⟩
    exact ⟨(a, m), FMap.mem_of_get h1, by simp [h2]⟩
  · rintro ⟨e, h1, h2⟩
    obtain ⟨x, m⟩ := e
    simp only [Prod.mk.injEq] at h2
    obtain ⟨rfl, rfl⟩ := h2
    exact ⟨m, FMap.get_of_mem ok h1, rfl⟩

/-- **C08.**  When the number of objects has reached the threshold, a collection terminates, frees exactly the objects that cannot be
reached from the places that hold objects, keeps the contents and the order of the others, and drops exactly the unprotected
strings that are no listener topic and not held by a surviving object.  `h` may contain any cycles. -/
theorem C08_collection_exact {h : Heap} {sm : Strman.SM Bytes} {r : Roots} (i : Inv h) (is : Strman.Inv sm)
    (hr : ∀ a, r.Mem a → ∃ c, Holds h a c) (hfull : h.maxObjs ≤ h.objs.length) :
    ∃ h' sm', gc h sm r = .ok (h', sm') ∧
      (∀ a c, Holds h' a c ↔ Holds h a c ∧ Reach h r.Mem a) ∧
      (contents h').Sublist (contents h) ∧
      (∀ sid s p, FMap.get sm'.id2str sid = some (s, p) ↔ FMap.get sm.id2str sid = some (s, p) ∧
        (p = true ∨ (∃ x ∈ r.listeners, x.1 = sid) ∨ ∃ a s', Holds h' a (.atom (.str sid s')))) ∧
      h'.maxObjs = if h'.objs = [] then 1 else (2 * h'.objs.length) % 4294967296 := by
  have hr' : ∀ a, r.Mem a → (FMap.get h.objs a).isSome := by
    intro a ha
    obtain ⟨c, m, h1, _⟩ := hr a ha
    rw [h1]; rfl
  obtain ⟨h', sm', h1, i', _, _, _, ⟨l, h2, h3⟩, h4, h5⟩ := gc_spec i is hr' hfull
  have hh : ∀ a c, Holds h' a c ↔ Holds h a c ∧ Reach h r.Mem a := by
    intro a c
    rw [holds_iff i'.ok, holds_iff i.ok, h3, List.mem_filter, ← h2, decide_eq_true_eq]
  refine ⟨h', sm', h1, hh, ?_, ?_, h4⟩
  · rw [h3]; exact List.filter_sublist
  · intro sid s p
    rw [h5]
    refine and_congr Iff.rfl (or_congr Iff.rfl (or_congr Iff.rfl ?_))
    constructor
    · rintro ⟨a, m, h6, h7, h8⟩
      have : ∃ s', m.cell = .atom (.str sid s') := by
        cases hc : m.cell with
        | tab t => rw [hc] at h8; simp [strOf] at h8
        | clo n q l => rw [hc] at h8; simp [strOf] at h8
        | atom o =>
          rw [hc] at h8
          cases o <;> simp [strOf] at h8
          subst h8
          exact ⟨_, rfl⟩
      obtain ⟨s', hs'⟩ := this
      exact ⟨a, s', (hh _ _).mpr ⟨⟨m, h7, hs'⟩, h6⟩⟩
    · rintro ⟨a, s', h6⟩
      obtain ⟨⟨m, h7, h8⟩, h9⟩ := (hh _ _).mp h6
      exact ⟨a, m, h9, h7, by rw [h8]; simp [strOf]⟩

/-- **C08**, below the threshold: nothing happens. -/
theorem C08_idle {h : Heap} (sm : Strman.SM Bytes) (r : Roots) (hfew : h.objs.length < h.maxObjs) :
    gc h sm r = .ok (h, sm) := by
  unfold gc
  rw [if_pos hfew]

/-- No roots. -/
def noRoots : Roots := ⟨[], [], [], [], [], [], [], []⟩

/-- A table with one entry. -/
def table1 (k : Obj) (x : Nat × Nat) : Table.Tbl (Nat × Nat) := ⟨[some [(k, x)]], 1⟩

/-- Two tables that contain each other (3 → 4 → 3), a key, a string and a table that contains itself (5): only 3 is on the
stack. -/
def ringHeap : Heap :=
  ⟨[(0, ⟨65535, .atom (.int 1)⟩), (1, ⟨65535, .atom (.str 7 [65])⟩), (2, ⟨65535, .atom (.str 8 [66])⟩),
    (3, ⟨65535, .tab (table1 (.int 1) (0, 4))⟩), (4, ⟨65535, .tab (table1 (.str 7 [65]) (1, 3))⟩),
    (5, ⟨65535, .tab (table1 (.int 1) (0, 5))⟩)], 65535, 6, 6⟩

/-- The collector keeps the ring that is on the stack and frees the other, and the string only it held, also when the marker wraps
around. -/
example : (do
    let p ← gc ringHeap ⟨[([65], 7), ([66], 8), ([67], 9)], [(7, ([65], false)), (8, ([66], false)), (9, ([67], true))], 10⟩
      { noRoots with stks := [[3]] }
    pure (p.1.objs.map (fun e => (e.1, e.2.mark)), p.1.marker, p.1.maxObjs, p.2.id2str)) =
    Res.ok ([(0, 0), (1, 0), (3, 0), (4, 0)], 0, 8, [(7, ([65], false)), (9, ([67], true))]) := by rfl

/-! ## C09 and C55 -/

/-- The heap with everything around it. -/
structure World where
  heap : Heap
  strings : Strman.SM Bytes
  roots : Roots

/-- What the rest of the machine does to the heap. -/
inductive Act where
  /-- `buzzheap_newobj`, or the new object of a deserialised or cloned value -/
  | alloc (c : Cell)
  /-- `buzzdict_set` / `buzzdict_remove` on the table at an address -/
  | write (a : Nat) (t : Table.Tbl (Nat × Nat))
  /-- any change of the variables, stacks, stigmergies, listeners and queues -/
  | roots (r : Roots)
  /-- `buzzstrman_register` -/
  | register (s : Bytes) (protect : Bool)
  /-- `buzzheap_clone` -/
  | clone (a : Nat)
  /-- `buzzheap_gc` -/
  | gc

/-- One action. -/
def act (sc : Bytes → Bytes → Int) (w : World) : Act → Res World
  | .alloc c => .ok { w with heap := (newobj w.heap c).1 }
  | .write a t => .ok { w with heap := write w.heap a (.tab t) }
  | .roots r => .ok { w with roots := r }
  | .register s p => do
    let x ← Strman.register w.strings s p
    pure { w with strings := x.1 }
  | .clone a => do
    let x ← clone sc (w.heap.objs.length + 1) w.heap a
    pure { w with heap := x.1 }
  | .gc => do
    let x ← gc w.heap w.strings w.roots
    pure { w with heap := x.1, strings := x.2 }

/-- The pointers in a cell lead to objects; a string is registered; a table can be searched. -/
def CellOk (sc : Bytes → Bytes → Int) (w : World) : Cell → Prop
  | .atom (.str sid s) => Strman.get w.strings sid = some s
  | .atom _ => True
  | .tab t => TabOk sc w.heap t ∧ ∀ e ∈ Dict.entries t, ∃ c, Holds w.heap e.2.2 c
  | .clo _ _ l => ∀ b ∈ l, ∃ c, Holds w.heap b c

/-- The action uses valid pointers. -/
def Valid (sc : Bytes → Bytes → Int) (w : World) : Act → Prop
  | .alloc c => CellOk sc w c
  | .write a t => (∃ t0, Holds w.heap a (.tab t0)) ∧ CellOk sc w (.tab t)
  | .roots r => ∀ a, r.Mem a → ∃ c, Holds w.heap a c
  | .register _ _ => w.strings.id2str.length ≤ 65533
  | .clone a => (∃ c, Holds w.heap a c) ∧ Acyclic w.heap a
  | .gc => True

/-- The worlds that occur in histories: from the empty heap by valid actions. -/
inductive Hist (sc : Bytes → Bytes → Int) : World → Prop where
  | start : Hist sc ⟨new, Strman.new, noRoots⟩
  | act {w w' : World} {x : Act} : Hist sc w → Valid sc w x → act sc w x = .ok w' → Hist sc w'

/-- The invariant. -/
structure WInv (sc : Bytes → Bytes → Int) (w : World) : Prop where
  heap : Inv w.heap
  strings : Strman.Inv w.strings
  roots : ∀ a, w.roots.Mem a → ∃ c, Holds w.heap a c
  cells : ∀ a c, Holds w.heap a c → CellOk sc w c

theorem holds_isSome {h : Heap} {a : Nat} : (FMap.get h.objs a).isSome ↔ ∃ c, Holds h a c := by
  rw [Option.isSome_iff_exists]
  constructor
  · rintro ⟨m, h1⟩; exact ⟨m.cell, m, h1, rfl⟩
  · rintro ⟨c, m, h1, _⟩; exact ⟨m, h1⟩

theorem children_ok {sc : Bytes → Bytes → Int} {w : World} {c : Cell} (h : CellOk sc w c) :
    ∀ b ∈ children c, (FMap.get w.heap.objs b).isSome := by
  intro b hb
  cases c with
  | atom o => simp [children] at hb
  | clo n r l => exact holds_isSome.mpr (h b hb)
  | tab t =>
    simp only [children, List.mem_flatMap] at hb
    obtain ⟨e, he, hb⟩ := hb
    simp only [List.mem_cons, List.not_mem_nil, or_false] at hb
    rcases hb with hb | hb
    · obtain ⟨m, h1, _⟩ := h.1.objs e he
      rw [hb, h1]; rfl
    · rw [hb]; exact holds_isSome.mpr (h.2 e he)

/-- Cells stay well formed when atoms keep their content and no object disappears. -/
theorem CellOk.mono {sc : Bytes → Bytes → Int} {w w' : World} {c : Cell} (h : CellOk sc w c)
    (ha : ∀ a o, Holds w.heap a (.atom o) → Holds w'.heap a (.atom o)) (hp : ∀ a c, Holds w.heap a c → ∃ c, Holds w'.heap a c)
    (hs : ∀ i s, Strman.get w.strings i = some s → Strman.get w'.strings i = some s) : CellOk sc w' c := by
  cases c with
  | atom o => cases o <;> first | trivial | exact hs _ _ h
  | clo n r l =>
    intro b hb
    obtain ⟨c, hc⟩ := h b hb
    exact hp b c hc
  | tab t =>
    obtain ⟨⟨h1, h2, h3⟩, h4⟩ := h
    refine ⟨⟨h1, h2, fun e he => ?_⟩, fun e he => ?_⟩
    · exact ha _ _ (h3 e he)
    · obtain ⟨c, hc⟩ := h4 e he
      exact hp _ c hc

theorem holds_alloc {h : Heap} (i : Inv h) {mk : Nat} {c : Cell} {a : Nat} {c' : Cell} :
    Holds (alloc h mk c).1 a c' ↔ (a = h.brk ∧ c' = c) ∨ Holds h a c' := by
  unfold Holds
  rw [get_alloc i]
  by_cases ha : a = h.brk
  · subst ha
    have : FMap.get h.objs h.brk = none := by
      cases hg : FMap.get h.objs h.brk with
      | none => rfl
      | some m => exact absurd (lt_brk i hg) (Nat.lt_irrefl _)
    rw [this]
    simp [eq_comm]
  · simp [ha]

theorem holds_inj {h : Heap} {a : Nat} {c c' : Cell} (h1 : Holds h a c) (h2 : Holds h a c') : c = c' := by
  obtain ⟨m, g1, rfl⟩ := h1
  obtain ⟨m', g2, rfl⟩ := h2
  rw [g1] at g2; cases g2; rfl

theorem holds_write {h : Heap} {a : Nat} {c0 c : Cell} (h0 : Holds h a c0) {x : Nat} {c' : Cell} :
    Holds (write h a c) x c' ↔ (x = a ∧ c' = c) ∨ (x ≠ a ∧ Holds h x c') := by
  unfold Holds
  rw [get_write]
  by_cases hx : x = a
  · subst hx
    obtain ⟨m, g1, _⟩ := h0
    rw [g1]
    simp [eq_comm]
  · simp [hx]

/-- Every action valid in an invariant world succeeds and keeps the invariant. -/
theorem act_spec {sc : Bytes → Bytes → Int} {w : World} (i : WInv sc w) (x : Act) (v : Valid sc w x) :
    ∃ w', act sc w x = .ok w' ∧ WInv sc w' := by
  cases x with
  | alloc c =>
    refine ⟨_, rfl, ⟨?_, i.strings, ?_, ?_⟩⟩
    · exact inv_alloc i.heap (children_ok v)
    · intro a ha
      obtain ⟨c', hc⟩ := i.roots a ha
      exact ⟨c', (holds_alloc i.heap).mpr (.inr hc)⟩
    · intro a c' hc
      have mono : ∀ {c''}, CellOk sc w c'' → CellOk sc { w with heap := (newobj w.heap c).1 } c'' := fun hk =>
        hk.mono (fun a o h => (holds_alloc i.heap).mpr (.inr h)) (fun a c h => ⟨c, (holds_alloc i.heap).mpr (.inr h)⟩) (fun _ _ h => h)
      rcases (holds_alloc i.heap).mp hc with ⟨_, rfl⟩ | hc
      · exact mono v
      · exact mono (i.cells a c' hc)
  | write a t =>
    obtain ⟨⟨t0, h0⟩, v⟩ := v
    refine ⟨_, rfl, ⟨?_, i.strings, ?_, ?_⟩⟩
    · exact inv_write i.heap (children_ok v)
    · intro x hx
      obtain ⟨c', hc⟩ := i.roots x hx
      by_cases hxa : x = a
      · exact ⟨.tab t, (holds_write h0).mpr (.inl ⟨hxa, rfl⟩)⟩
      · exact ⟨c', (holds_write h0).mpr (.inr ⟨hxa, hc⟩)⟩
    · intro x c' hc
      have mono : ∀ {c''}, CellOk sc w c'' → CellOk sc { w with heap := write w.heap a (.tab t) } c'' := fun hk =>
        hk.mono (fun y o h => (holds_write h0).mpr (.inr ⟨fun hy => by subst hy; exact Cell.noConfusion (holds_inj h h0), h⟩))
          (fun y c h => by
            by_cases hxa : y = a
            · exact ⟨.tab t, (holds_write h0).mpr (.inl ⟨hxa, rfl⟩)⟩
            · exact ⟨c, (holds_write h0).mpr (.inr ⟨hxa, h⟩)⟩) (fun _ _ h => h)
      rcases (holds_write h0).mp hc with ⟨_, rfl⟩ | ⟨_, hc⟩
      · exact mono v
      · exact mono (i.cells x c' hc)
  | roots r => exact ⟨_, rfl, ⟨i.heap, i.strings, v, fun a c h => (i.cells a c h).mono (fun _ _ h => h) (fun _ c h => ⟨c, h⟩) (fun _ _ h => h)⟩⟩
  | register s p =>
    have key : ∃ sm' id, Strman.register w.strings s p = .ok (sm', id) ∧ Strman.Inv sm' ∧
        ∀ j t, Strman.get w.strings j = some t → Strman.get sm' j = some t := by
      cases hs : FMap.get w.strings.str2id s with
      | some id =>
        obtain ⟨sm', h1, h2, h3, _⟩ := Strman.register_old i.strings hs p
        exact ⟨sm', id, h1, h2, fun j t h => by rw [h3]; exact h⟩
      | none =>
        obtain ⟨sm', id, h1, h2, h3, h4, _⟩ := Strman.register_new i.strings hs p v
        refine ⟨sm', id, h1, h2, fun j t h => ?_⟩
        unfold Strman.get at h ⊢
        rw [h4]
        by_cases hj : j = id
        · subst hj; rw [h3] at h; cases h
        · rw [if_neg hj]; exact h
    obtain ⟨sm', id, h1, h2, h3⟩ := key
    refine ⟨{ w with strings := sm' }, by simp [act, h1], ⟨i.heap, h2, i.roots, fun a c h => ?_⟩⟩
    exact (i.cells a c h).mono (fun _ _ h => h) (fun _ c h => ⟨c, h⟩) h3
  | clone a =>
    obtain ⟨hp, ac⟩ := v
    obtain ⟨h', b, h1, cl⟩ := clone_spec i.heap (fun a m t h1 h2 => (i.cells a (.tab t) ⟨m, h1, h2⟩).1) (w.heap.objs.length + 1) w.heap a []
      i.heap (Ext.refl _) (holds_isSome.mpr hp) ac List.nodup_nil (by simp) (by simp)
    have old : ∀ x c, Holds w.heap x c → Holds h' x c := by
      rintro x c ⟨m, h2, h3⟩
      exact ⟨m, cl.ext.get i.heap h2, h3⟩
    refine ⟨{ w with heap := h' }, by simp [act, h1], ⟨cl.inv, i.strings, fun x hx => ?_, ?_⟩⟩
    · obtain ⟨c, hc⟩ := i.roots x hx
      exact ⟨c, old x c hc⟩
    · intro x c hc
      have mono : ∀ {c''}, CellOk sc w c'' → CellOk sc { w with heap := h' } c'' := fun hk =>
        hk.mono (fun y o h => old y _ h) (fun y c h => ⟨c, old y c h⟩) (fun _ _ h => h)
      obtain ⟨m, h2, h3⟩ := hc
      by_cases hx : w.heap.brk ≤ x
      · rcases cl.fresh x m hx h2 with ⟨a0, m0, h4, h5, _⟩ | ⟨t, h4, h5⟩
        · rw [h3] at h5
          exact mono (i.cells a0 c ⟨m0, h4, h5⟩)
        · rw [h3] at h4
          subst h4
          refine ⟨h5, fun e he => ?_⟩
          apply holds_isSome.mp
          refine cl.inv.closed x e.2.2 (points_iff.mpr ⟨m, h2, ?_⟩)
          rw [h3]
          simp only [children, List.mem_flatMap]
          exact ⟨e, he, by simp⟩
      · rw [cl.ext.old x (by omega)] at h2
        exact mono (i.cells x c ⟨m, h2, h3⟩)
  | gc =>
    by_cases hfull : w.heap.maxObjs ≤ w.heap.objs.length
    · obtain ⟨h', sm', h1, h2, _, h4, _⟩ := C08_collection_exact i.heap i.strings i.roots hfull
      obtain ⟨h'', sm'', g1, g2, g3, _⟩ := gc_spec i.heap i.strings (fun a ha => holds_isSome.mpr (i.roots a ha)) hfull
      rw [h1] at g1; cases g1
      refine ⟨{ w with heap := h', strings := sm' }, by simp [act, h1], ⟨g2, g3, ?_, ?_⟩⟩
      · intro a ha
        obtain ⟨c, hc⟩ := i.roots a ha
        exact ⟨c, (h2 a c).mpr ⟨hc, .root ha⟩⟩
      · intro a c hc
        obtain ⟨h5, h6⟩ := (h2 a c).mp hc
        have hk := i.cells a c h5
        have hpt : ∀ b ∈ children c, Reach w.heap w.roots.Mem b := by
          intro b hb
          obtain ⟨m, g4, g5⟩ := h5
          exact .step h6 (points_iff.mpr ⟨m, g4, g5 ▸ hb⟩)
        cases c with
        | atom o =>
          cases o <;> try trivial
          rename_i sid s
          simp only [CellOk] at hk ⊢
          unfold Strman.get at hk ⊢
          rw [Option.map_eq_some_iff] at hk ⊢
          obtain ⟨⟨s', p⟩, g4, g5⟩ := hk
          simp only at g5
          subst g5
          exact ⟨(s', p), (h4 _ _ _).mpr ⟨g4, .inr (.inr ⟨a, s', hc⟩)⟩, rfl⟩
        | clo n r l =>
          intro b hb
          obtain ⟨c', hc'⟩ := hk b hb
          exact ⟨c', (h2 b c').mpr ⟨hc', hpt b hb⟩⟩
        | tab t =>
          obtain ⟨⟨k1, k2, k3⟩, k4⟩ := hk
          refine ⟨⟨k1, k2, fun e he => ?_⟩, fun e he => ?_⟩
          · refine (h2 _ _).mpr ⟨k3 e he, hpt _ ?_⟩
            simp only [children, List.mem_flatMap]
            exact ⟨e, he, by simp⟩
          · obtain ⟨c', hc'⟩ := k4 e he
            refine ⟨c', (h2 _ _).mpr ⟨hc', hpt _ ?_⟩⟩
            simp only [children, List.mem_flatMap]
            exact ⟨e, he, by simp⟩
    · refine ⟨w, ?_, i⟩
      simp [act, C08_idle w.strings w.roots (Nat.lt_of_not_le hfull)]

theorem hist_inv {sc : Bytes → Bytes → Int} {w : World} (h : Hist sc w) : WInv sc w := by
  induction h with
  | start =>
    refine ⟨⟨List.nodup_nil, by simp [new], ?_, by simp [new], by decide⟩, Strman.new_inv, ?_, ?_⟩
    · rintro a b ⟨m, h1, _⟩
      simp [new] at h1
    · intro a ha
      simp [Roots.Mem, noRoots] at ha
    · rintro a c ⟨m, h1, _⟩
      simp [new] at h1
  | act _ v h1 ih =>
    obtain ⟨w', h2, h3⟩ := act_spec ih _ v
    rw [h1] at h2
    cases h2
    exact h3

/-- **C09.**  Whatever allocations, table tableWrites, clones, root changes and collections came before - also more than 65536 collections,
with the 16-bit marker wrapped around - an action on valid pointers never fails, and a collection that runs is exact. -/
theorem C09_every_collection_exact {sc : Bytes → Bytes → Int} {w : World} (h : Hist sc w) :
    (∀ x, Valid sc w x → ∃ w', act sc w x = .ok w') ∧
    ∃ w', act sc w .gc = .ok w' ∧ w'.roots = w.roots ∧
      ((w.heap.objs.length < w.heap.maxObjs ∧ w' = w) ∨
        (w.heap.maxObjs ≤ w.heap.objs.length ∧ ∀ a c, Holds w'.heap a c ↔ Holds w.heap a c ∧ Reach w.heap w.roots.Mem a)) := by
  have i := hist_inv h
  refine ⟨fun x v => ?_, ?_⟩
  · obtain ⟨w', h1, _⟩ := act_spec i x v
    exact ⟨w', h1⟩
  · by_cases hfull : w.heap.maxObjs ≤ w.heap.objs.length
    · obtain ⟨h', sm', h1, h2, _⟩ := C08_collection_exact i.heap i.strings i.roots hfull
      exact ⟨{ w with heap := h', strings := sm' }, by simp [act, h1], rfl, .inr ⟨hfull, h2⟩⟩
    · refine ⟨w, ?_, rfl, .inl ⟨Nat.lt_of_not_le hfull, rfl⟩⟩
      simp [act, C08_idle w.strings w.roots (Nat.lt_of_not_le hfull)]

/-- **C09**: no pointer held by a variable, a stack, a queue or an object ever dangles. -/
theorem C09_no_dangling {sc : Bytes → Bytes → Int} {w : World} (h : Hist sc w) (a : Nat) (ha : Reach w.heap w.roots.Mem a) :
    ∃ c, Holds w.heap a c := by
  have i := hist_inv h
  cases ha with
  | root h1 => exact i.roots a h1
  | step _ p => exact holds_isSome.mp (i.heap.closed _ _ p)

/-- **C55.**  A string object always refers to registered characters: its string is not collected before it. -/
theorem C55_string_objects_registered {sc : Bytes → Bytes → Int} {w : World} (h : Hist sc w) (a sid : Nat) (s : Bytes)
    (hs : Holds w.heap a (.atom (.str sid s))) : Strman.get w.strings sid = some s :=
  (hist_inv h).cells a _ hs

/-- One object that is never freed, on the stack. -/
def kept (k b : Nat) : World :=
  ⟨⟨[(0, ⟨k, .atom .nil⟩)], k, 2, b⟩, Strman.new, { noRoots with stks := [[0]] }⟩

theorem strgc_new : Strman.gc (Strman.new : Strman.SM Bytes) [] = .ok Strman.new := rfl

theorem gc_kept (sc : Bytes → Bytes → Int) (k b : Nat) (hk : k < 65536) :
    act sc { kept k (b + 1) with heap := (newobj (kept k (b + 1)).heap (.atom .nil)).1 } .gc = .ok (kept ((k + 1) % 65536) (b + 2)) := by
  have hne : k ≠ (k + 1) % 65536 := by omega
  have hne' : ¬ (k + 1) % 65536 = k := fun h => hne h.symm
  simp [act, gc, kept, newobj, alloc, markRoots, markAll, mark, deref, FMap.get, Heap.modify, children, strOf, noRoots, hne, U16, strgc_new, U32]

/-- **C09**: the marker does wrap around within histories: there are histories of any number `n` of collections after which an object made
at the start is still there. -/
theorem C09_marker_wraps (sc : Bytes → Bytes → Int) : ∀ n : Nat,
    ∃ w, Hist sc w ∧ w.heap.marker = (n + 1) % 65536 ∧ Holds w.heap 0 (.atom .nil) := by
  have h0 : Hist sc (kept 1 1) := by
    have h1 : Hist sc ⟨⟨[(0, ⟨0, .atom .nil⟩)], 0, 1, 1⟩, Strman.new, noRoots⟩ := Hist.act (x := .alloc (.atom .nil)) .start trivial rfl
    have h2 : Hist sc ⟨⟨[(0, ⟨0, .atom .nil⟩)], 0, 1, 1⟩, Strman.new, { noRoots with stks := [[0]] }⟩ := by
      refine Hist.act (x := .roots { noRoots with stks := [[0]] }) h1 ?_ rfl
      intro a ha
      simp [Roots.Mem, noRoots] at ha
      subst ha
      exact ⟨_, _, rfl, rfl⟩
    exact Hist.act (x := .gc) h2 trivial rfl
  have key : ∀ n, Hist sc (kept ((n + 1) % 65536) (n + 1)) := by
    intro n
    induction n with
    | zero => exact h0
    | succ n ih =>
      have h1 := Hist.act (x := .alloc (.atom .nil)) ih trivial rfl
      have h2 := Hist.act (x := .gc) h1 trivial (gc_kept sc _ n (Nat.mod_lt _ (by decide)))
      rwa [Nat.mod_add_mod] at h2
  intro n
  exact ⟨_, key n, rfl, _, rfl, rfl⟩

/-! ## C10 -/

/-- **C10.**  Cloning an acyclic value terminates and yields a structural copy in which every object is new; no existing object is changed
by it. -/
theorem C10_clone_copies {sc : Bytes → Bytes → Int} {w : World} (h : Hist sc w) {a : Nat} (ha : ∃ c, Holds w.heap a c) (ac : Acyclic w.heap a) :
    ∃ h' b, clone sc (w.heap.objs.length + 1) w.heap a = .ok (h', b) ∧ Copy w.heap h' w.heap.brk a b ∧
      ∀ x c, x < w.heap.brk → (Holds h' x c ↔ Holds w.heap x c) := by
  have i := hist_inv h
  obtain ⟨h', b, h1, cl⟩ := clone_spec i.heap (fun a m t h1 h2 => (i.cells a (.tab t) ⟨m, h1, h2⟩).1) (w.heap.objs.length + 1) w.heap a []
    i.heap (Ext.refl _) (holds_isSome.mpr ha) ac List.nodup_nil (by simp) (by simp)
  refine ⟨h', b, h1, cl.copy, fun x c hx => ?_⟩
  unfold Holds
  rw [cl.ext.old x hx]

/-- A series of tableWrites to tables. -/
def tableWrites (h : Heap) (ws : List (Nat × Table.Tbl (Nat × Nat))) : Heap := ws.foldl (fun h x => write h x.1 (.tab x.2)) h

theorem holds_tableWrites {x : Nat} {c : Cell} : ∀ (ws : List (Nat × Table.Tbl (Nat × Nat))) (h : Heap), (∀ e ∈ ws, e.1 ≠ x) →
    (Holds (tableWrites h ws) x c ↔ Holds h x c)
  | [], _, _ => Iff.rfl
  | e :: ws, h, hne => by
    have := holds_tableWrites (c := c) ws (write h e.1 (.tab e.2)) (fun e' he => hne e' (List.mem_cons_of_mem _ he))
    rw [show tableWrites h (e :: ws) = tableWrites (write h e.1 (.tab e.2)) ws from rfl, this]
    unfold Holds
    rw [get_write, if_neg (Ne.symm (hne e (List.mem_cons_self ..)))]

/-- **C10**, independence: writing to tables that existed before the clone leaves the clone a copy of the value as it was when cloned, and
writing to new tables (those of the clone) leaves all objects that existed before as they were. -/
theorem C10_independent {sc : Bytes → Bytes → Int} {w : World} (h : Hist sc w) {a b : Nat} {h' : Heap}
    (hc : clone sc (w.heap.objs.length + 1) w.heap a = .ok (h', b)) (ha : ∃ c, Holds w.heap a c) (ac : Acyclic w.heap a)
    (ws : List (Nat × Table.Tbl (Nat × Nat))) :
    ((∀ e ∈ ws, e.1 < w.heap.brk) → Copy w.heap (tableWrites h' ws) w.heap.brk a b) ∧
    ((∀ e ∈ ws, w.heap.brk ≤ e.1) → ∀ x c, x < w.heap.brk → (Holds (tableWrites h' ws) x c ↔ Holds w.heap x c)) := by
  obtain ⟨h'', b', h1, h2, h3⟩ := C10_clone_copies h ha ac
  rw [hc] at h1
  cases h1
  refine ⟨fun hw => ?_, fun hw x c hx => ?_⟩
  · refine h2.frame (Nat.le_refl _) ?_
    intro x m hx hm
    have : ∀ (ws : List (Nat × Table.Tbl (Nat × Nat))) (g : Heap), (∀ e ∈ ws, e.1 < w.heap.brk) → FMap.get g.objs x = some m →
        FMap.get (tableWrites g ws).objs x = some m := by
      intro ws
      induction ws with
      | nil => intro g _ h; exact h
      | cons e ws ih =>
        intro g hlt hg
        refine ih _ (fun e' he => hlt e' (List.mem_cons_of_mem _ he)) ?_
        have := hlt e (List.mem_cons_self ..)
        rw [get_write, if_neg (by omega), hg]
    exact this ws h' hw hm
  · rw [holds_tableWrites ws h' (fun e he => by have := hw e he; omega)]
    exact h3 x c hx

/-- What a table with nested table looks like before and after cloning: addresses 3.. are new, the key and the value of the inner
table too. -/
example : (do
    let p ← clone Obj.strcmpDiff 4 ⟨[(0, ⟨5, .atom (.int 1)⟩), (1, ⟨5, .tab (table1 (.int 1) (0, 0))⟩), (2, ⟨5, .tab (table1 (.int 1) (0, 1))⟩)], 5, 9, 3⟩ 2
    pure (p.2, p.1.objs.map (fun e => (e.1, e.2.mark, children e.2.cell)))) =
    Res.ok (3, [(0, 5, []), (1, 5, [0, 0]), (2, 5, [0, 1]), (3, 5, [4, 5]), (4, 5, []), (5, 5, [6, 7]), (6, 5, []), (7, 5, [])]) := by decide +kernel

/-- A table that contains itself is never cloned. -/
example : clone Obj.strcmpDiff 8 ringHeap 5 = .hang := by rfl

/-- The activation record of a cloned closure holds the same objects: a table captured by it is shared. -/
example : (do
    let p ← clone Obj.strcmpDiff 2 ⟨[(0, ⟨0, .tab (Dict.new 10)⟩), (1, ⟨0, .clo true 40 [0]⟩)], 0, 9, 2⟩ 1
    pure (p.2, p.1.objs.map (fun e => (e.1, children e.2.cell)))) =
    Res.ok (2, [(0, []), (1, [0]), (2, [0])]) := by rfl

end Buzz.Props
