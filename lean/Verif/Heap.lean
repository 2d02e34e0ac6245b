import Verif.Table
import Verif.Strman

/-
The heap and garbage collector, src/buzz/buzzheap.c.

An object is a cell at an address; addresses are never reused, so a dangling pointer is always recognised and dereferencing
it is undefined (`.ub`).  `h->objs` (the list of all objects) is the list of cells in order.  Table keys are objects too: a
table maps the content of a key to the addresses of the key object and of the value.
-/
namespace Buzz.Heap

open Buzz.Msg

/-- The content of `union buzzobj_u` (buzztype.h 70-131) without the marker. -/
inductive Cell where
  /-- nil, integer, float, string or user data -/
  | atom (o : Obj)
  | tab (t : Table.Tbl (Nat × Nat))
  | clo (native : Bool) (ref : Int) (actrec : List Nat)

/-- A cell and its marker. -/
structure Marked where
  mark : Nat
  cell : Cell

/-- `struct buzzheap_s` (buzzheap.h 18-25); `brk` is the next address. -/
structure Heap where
  objs : List (Nat × Marked)
  marker : Nat
  maxObjs : Nat
  brk : Nat

/-- `buzzheap_new` (19-30). -/
def new : Heap := ⟨[], 0, 1, 0⟩

/-- Dereference. -/
def deref (h : Heap) (a : Nat) : Res Marked :=
  match FMap.get h.objs a with
  | some m => .ok m
  | none => .ub

/-- Change the object at an address in place. -/
def modify (objs : List (Nat × Marked)) (a : Nat) (f : Marked → Marked) : List (Nat × Marked) :=
  objs.map (fun e => if e.1 = a then (e.1, f e.2) else e)

/-- A new object at the end of `h->objs`, with the given marker. -/
def alloc (h : Heap) (mk : Nat) (c : Cell) : Heap × Nat :=
  ({ h with objs := h.objs ++ [(h.brk, ⟨mk, c⟩)], brk := h.brk + 1 }, h.brk)

/-- `buzzheap_newobj` (46-56), and the content then given to the object. -/
def newobj (h : Heap) (c : Cell) : Heap × Nat := alloc h h.marker c

/-- The value compared and hashed for the object at `a` with this content. -/
def objOf (a : Nat) : Cell → Obj
  | .atom o => o
  | .tab _ => .tab a
  | .clo _ _ _ => .clo a

/-- Assign the content of an object (table writes). -/
def write (h : Heap) (a : Nat) (c : Cell) : Heap := { h with objs := modify h.objs a (fun m => { m with cell := c }) }

/-! ### Marking -/

/-- The objects a cell points to, in the order they are marked (`buzzheap_dictobj_mark` 152-155, `darrayobj_mark` 157-159). -/
def children : Cell → List Nat
  | .atom _ => []
  | .tab t => (Dict.entries t).flatMap (fun e => [e.2.1, e.2.2])
  | .clo _ _ r => r

/-- The string id a cell marks. -/
def strOf : Cell → List Nat
  | .atom (.str sid _) => [sid]
  | _ => []

/-- The state during marking: the heap and the string ids passed to `buzzstrman_gc_mark`, latest first. -/
structure MSt where
  h : Heap
  strs : List Nat

/-- `buzzheap_obj_mark` (129-150).  The first argument bounds the recursion depth. -/
def mark : Nat → MSt → Nat → Res MSt
  | 0, _, _ => .hang
  | fuel + 1, s, a => do
    let m ← deref s.h a
    if m.mark = s.h.marker then pure s
    else
      (children m.cell).foldlM (mark fuel)
        ⟨{ s.h with objs := modify s.h.objs a (fun m => { m with mark := s.h.marker }) }, strOf m.cell ++ s.strs⟩

/-- What the collector needs to know of a stigmergy: the two conflict closures and the entries (key and data objects). -/
structure VRoots where
  onconflict : Option Nat
  onconflictlost : Option Nat
  data : List (Nat × Nat)

/-- The places outside the heap that hold objects. -/
structure Roots where
  /-- `vm->gsyms` -/
  gsyms : List (Nat × Nat)
  /-- `vm->stacks` -/
  stks : List (List Nat)
  /-- `vm->lsymts` -/
  lsymts : List (List Nat)
  /-- `vm->vstigs` -/
  vstigs : List (Nat × VRoots)
  /-- `vm->listeners`: topic id and closure -/
  listeners : List (Nat × Nat)
  /-- queued broadcasts: topic and value -/
  bcasts : List (Nat × Nat)
  /-- queued stigmergy puts: key and data -/
  puts : List (Nat × Nat)
  /-- queued stigmergy queries -/
  queries : List (Nat × Nat)

/-- `buzzdarray_foreach` or `buzzdict_foreach` with one of the marking functions. -/
def markAll {α : Type} (fuel : Nat) (f : α → List Nat) (s : MSt) (l : List α) : Res MSt :=
  l.foldlM (fun s x => (f x).foldlM (mark fuel) s) s

/-- `buzzheap_listener_mark` (189-192): the topic string and the closure. -/
def markListener (fuel : Nat) (s : MSt) (l : Nat × Nat) : Res MSt := mark fuel { s with strs := l.1 :: s.strs } l.2

/-- The marking phase (207-218) with `buzzheap_gsymobj_mark` (194-196), `stack_mark` (161-165), `lsyms_mark` (167-171), `vstig_mark`
(178-187), `vstigobj_mark` (173-176) and `buzzoutmsg_gc` (buzzoutmsg.c 489-516). -/
def markRoots (fuel : Nat) (s : MSt) (r : Roots) : Res MSt := do
  let s ← markAll fuel (fun e => [e.2]) s r.gsyms
  let s ← markAll fuel (fun e => e) s r.stks
  let s ← markAll fuel (fun e => e) s r.lsymts
  let s ← markAll fuel (fun e => e.2.onconflict.toList ++ e.2.onconflictlost.toList ++ e.2.data.flatMap (fun x => [x.1, x.2])) s r.vstigs
  let s ← r.listeners.foldlM (markListener fuel) s
  let s ← markAll fuel (fun e => [e.1, e.2]) s r.bcasts
  let s ← markAll fuel (fun e => [e.1, e.2]) s r.puts
  markAll fuel (fun e => [e.1, e.2]) s r.queries

/-- `buzzheap_gc` (198-233) with the string manager of the machine.  The recursion depth of `mark` is bounded by the number of
objects. -/
def gc (h : Heap) (sm : Strman.SM Bytes) (r : Roots) : Res (Heap × Strman.SM Bytes) :=
  if h.objs.length < h.maxObjs then .ok (h, sm)
  else do
    let h1 := { h with marker := (h.marker + 1) % U16 }
    let s ← markRoots (h.objs.length + 1) ⟨h1, []⟩ r
    let objs := s.h.objs.filter (fun e => e.2.mark = s.h.marker)
    let sm ← Strman.gc sm s.strs.reverse
    pure ({ s.h with objs := objs, maxObjs := if objs.isEmpty then 1 else (2 * objs.length) % U32 }, sm)

/-! ### Cloning -/

/-- `buzzheap_clone` (73-124) with `buzzheap_clone_tableelem` (64-71).  The clone has the marker of the original.  A closure's
activation record is copied, the objects in it are shared.  The first argument bounds the recursion depth: a table that contains
itself is never finished. -/
def clone (sc : Bytes → Bytes → Int) : Nat → Heap → Nat → Res (Heap × Nat)
  | 0, _, _ => .hang
  | fuel + 1, h, a => do
    let m ← deref h a
    match m.cell with
    | .tab t => do
      let r ← (Dict.entries t).foldlM (fun (p : Heap × Table.Tbl (Nat × Nat)) e => do
        let k ← clone sc fuel p.1 e.2.1
        let d ← clone sc fuel k.1 e.2.2
        let kc ← deref d.1 k.2
        let t ← Table.set sc p.2 (objOf k.2 kc.cell) (k.2, d.2)
        pure (d.1, t)) ((alloc h m.mark (.tab (Dict.new t.buckets.length))).1, Dict.new t.buckets.length)
      pure (write r.1 h.brk (.tab r.2), h.brk)
    | c => pure (alloc h m.mark c)

/-! ### Reachability -/

/-- All objects held outside the heap. -/
def Roots.Mem (r : Roots) (a : Nat) : Prop :=
  (∃ e ∈ r.gsyms, e.2 = a) ∨ (∃ l ∈ r.stks, a ∈ l) ∨ (∃ l ∈ r.lsymts, a ∈ l) ∨
  (∃ e ∈ r.vstigs, e.2.onconflict = some a ∨ e.2.onconflictlost = some a ∨ ∃ x ∈ e.2.data, x.1 = a ∨ x.2 = a) ∨
  (∃ e ∈ r.listeners, e.2 = a) ∨ (∃ e ∈ r.bcasts, e.1 = a ∨ e.2 = a) ∨ (∃ e ∈ r.puts, e.1 = a ∨ e.2 = a) ∨
  (∃ e ∈ r.queries, e.1 = a ∨ e.2 = a)

/-- The object at `a` holds a pointer to `b`. -/
def Points (h : Heap) (a b : Nat) : Prop :=
  ∃ m, FMap.get h.objs a = some m ∧
    match m.cell with
    | .atom _ => False
    | .tab t => ∃ e ∈ Dict.entries t, e.2.1 = b ∨ e.2.2 = b
    | .clo _ _ r => b ∈ r

/-- Reachable from a set of addresses. -/
inductive Reach (h : Heap) (R : Nat → Prop) : Nat → Prop where
  | root {a : Nat} : R a → Reach h R a
  | step {a b : Nat} : Reach h R a → Points h a b → Reach h R b

theorem Reach.mono {h : Heap} {R R' : Nat → Prop} (hR : ∀ a, R a → R' a) {a : Nat} (r : Reach h R a) : Reach h R' a := by
  induction r with
  | root h1 => exact .root (hR _ h1)
  | step _ p ih => exact .step ih p

theorem Reach.trans {h : Heap} {R R' : Nat → Prop} (hR : ∀ a, R a → Reach h R' a) {a : Nat} (r : Reach h R a) : Reach h R' a := by
  induction r with
  | root h1 => exact hR _ h1
  | step _ p ih => exact .step ih p

/-! ### Correctness of marking -/

theorem points_iff {h : Heap} {a b : Nat} : Points h a b ↔ ∃ m, FMap.get h.objs a = some m ∧ b ∈ children m.cell := by
  unfold Points
  constructor
  · rintro ⟨m, h1, h2⟩
    refine ⟨m, h1, ?_⟩
    cases hc : m.cell with
    | atom o => rw [hc] at h2; exact h2.elim
    | tab t =>
      rw [hc] at h2
      obtain ⟨e, he, h3⟩ := h2
      simp only [children, List.mem_flatMap]
      exact ⟨e, he, by rcases h3 with h | h <;> simp [h]⟩
    | clo n r l => rw [hc] at h2; exact h2
  · rintro ⟨m, h1, h2⟩
    refine ⟨m, h1, ?_⟩
    cases hc : m.cell with
    | atom o => rw [hc] at h2; simp [children] at h2
    | tab t =>
      rw [hc] at h2
      simp only [children, List.mem_flatMap] at h2
      obtain ⟨e, he, h3⟩ := h2
      refine ⟨e, he, ?_⟩
      simpa [eq_comm] using h3
    | clo n r l => rw [hc] at h2; exact h2

theorem get_modify (objs : List (Nat × Marked)) (a : Nat) (f : Marked → Marked) (x : Nat) :
    FMap.get (modify objs a f) x = if x = a then (FMap.get objs x).map f else FMap.get objs x := by
  induction objs with
  | nil => simp [modify]
  | cons e l ih =>
    unfold modify at ih ⊢
    rw [List.map_cons]
    by_cases he : e.1 = a
    · rw [if_pos he, FMap.get_cons, FMap.get_cons, ih]
      by_cases hx : e.1 = x
      · simp [hx, hx ▸ he]
      · have : x ≠ a := fun h => hx (he.trans h.symm)
        simp [hx, this]
    · rw [if_neg he, FMap.get_cons, FMap.get_cons, ih]
      by_cases hx : e.1 = x
      · have : x ≠ a := fun h => he (hx.trans h)
        simp [hx, this]
      · simp [hx]

theorem keys_modify (objs : List (Nat × Marked)) (a : Nat) (f : Marked → Marked) :
    (modify objs a f).map Prod.fst = objs.map Prod.fst := by
  unfold modify
  rw [List.map_map]
  apply List.map_congr_left
  intro e _
  simp only [Function.comp]
  split <;> rfl

/-- Marked with the current marker. -/
def IsMarked (h : Heap) (a : Nat) : Prop := ∃ m, FMap.get h.objs a = some m ∧ m.mark = h.marker

/-- The number of objects not marked yet. -/
def unmarked (h : Heap) : Nat := (h.objs.filter (fun e => decide (e.2.mark ≠ h.marker))).length

/-- Every pointer leads to an object. -/
def Closed (h : Heap) : Prop := ∀ a b, Points h a b → (FMap.get h.objs b).isSome

/-- `h'` is `h` with more marks, in the same order. -/
structure More (h h' : Heap) : Prop where
  marker : h'.marker = h.marker
  maxObjs : h'.maxObjs = h.maxObjs
  brk : h'.brk = h.brk
  keys : h'.objs.map Prod.fst = h.objs.map Prod.fst
  cells : h'.objs.map (fun e => e.2.cell) = h.objs.map (fun e => e.2.cell)
  get : ∀ a m, FMap.get h.objs a = some m → ∃ m', FMap.get h'.objs a = some m' ∧ m'.cell = m.cell ∧
    (m'.mark = m.mark ∨ m'.mark = h.marker)
  back : ∀ a m', FMap.get h'.objs a = some m' → ∃ m, FMap.get h.objs a = some m ∧ m'.cell = m.cell ∧
    (m'.mark = m.mark ∨ m'.mark = h.marker)

theorem More.refl (h : Heap) : More h h :=
  ⟨rfl, rfl, rfl, rfl, rfl, fun _ m hm => ⟨m, hm, rfl, .inl rfl⟩, fun _ m hm => ⟨m, hm, rfl, .inl rfl⟩⟩

theorem More.trans {h h' h'' : Heap} (a : More h h') (b : More h' h'') : More h h'' := by
  refine ⟨b.marker.trans a.marker, b.maxObjs.trans a.maxObjs, b.brk.trans a.brk, b.keys.trans a.keys, b.cells.trans a.cells, ?_, ?_⟩
  · intro x m hm
    obtain ⟨m1, h1, h2, h3⟩ := a.get x m hm
    obtain ⟨m2, h4, h5, h6⟩ := b.get x m1 h1
    refine ⟨m2, h4, h5.trans h2, ?_⟩
    rw [a.marker] at h6
    rcases h6 with h6 | h6
    · rw [h6]; exact h3
    · exact .inr h6
  · intro x m hm
    obtain ⟨m1, h1, h2, h3⟩ := b.back x m hm
    obtain ⟨m2, h4, h5, h6⟩ := a.back x m1 h1
    refine ⟨m2, h4, h2.trans h5, ?_⟩
    rw [a.marker] at h3
    rcases h3 with h3 | h3
    · rw [h3]; exact h6
    · exact .inr h3

theorem More.points {h h' : Heap} (a : More h h') (x y : Nat) : Points h' x y ↔ Points h x y := by
  rw [points_iff, points_iff]
  constructor
  · rintro ⟨m, h1, h2⟩
    obtain ⟨m1, h3, h4, _⟩ := a.back x m h1
    exact ⟨m1, h3, h4 ▸ h2⟩
  · rintro ⟨m, h1, h2⟩
    obtain ⟨m1, h3, h4, _⟩ := a.get x m h1
    exact ⟨m1, h3, h4.symm ▸ h2⟩

theorem More.isSome {h h' : Heap} (a : More h h') (x : Nat) : (FMap.get h'.objs x).isSome = (FMap.get h.objs x).isSome := by
  cases h1 : FMap.get h.objs x with
  | some m => obtain ⟨m1, h3, _⟩ := a.get x m h1; rw [h3]; rfl
  | none =>
    cases h2 : FMap.get h'.objs x with
    | none => rfl
    | some m => obtain ⟨m1, h3, _⟩ := a.back x m h2; rw [h1] at h3; cases h3

theorem More.closed {h h' : Heap} (a : More h h') (c : Closed h) : Closed h' := by
  intro x y p
  rw [a.isSome]
  exact c x y ((a.points x y).mp p)

theorem More.marked {h h' : Heap} (a : More h h') {x : Nat} (p : IsMarked h x) : IsMarked h' x := by
  obtain ⟨m, h1, h2⟩ := p
  obtain ⟨m1, h3, _, h4⟩ := a.get x m h1
  refine ⟨m1, h3, ?_⟩
  rw [a.marker]
  rcases h4 with h4 | h4
  · rw [h4, h2]
  · exact h4

theorem length_filter_zip {α : Type} {p q : α → Bool} : ∀ (l l' : List α), l.length = l'.length →
    (∀ i (h1 : i < l.length) (h2 : i < l'.length), q l'[i] = true → p l[i] = true) → (l'.filter q).length ≤ (l.filter p).length
  | [], [], _, _ => by simp
  | a :: l, b :: l', hl, h => by
    have ih := length_filter_zip l l' (by simpa using hl) (fun i h1 h2 => by
      have := h (i + 1) (by simpa using h1) (by simpa using h2)
      simpa using this)
    have h0 := h 0 (by simp) (by simp)
    simp only [List.getElem_cons_zero] at h0
    rw [List.filter_cons, List.filter_cons]
    by_cases hq : q b = true
    · simp only [hq, h0 hq, if_true, List.length_cons]; omega
    · rw [if_neg hq]
      split
      · simp only [List.length_cons]; omega
      · exact ih
  | [], _ :: _, hl, _ => by simp at hl
  | _ :: _, [], hl, _ => by simp at hl

/-- More marks, fewer unmarked objects. -/
theorem More.unmarked_le {h h' : Heap} (w : FMap.Ok h.objs) (a : More h h') : unmarked h' ≤ unmarked h := by
  have hlen : h.objs.length = h'.objs.length := by
    have := congrArg List.length a.keys; simpa using this.symm
  apply length_filter_zip _ _ hlen
  intro i h1 h2 hq
  rw [decide_eq_true_eq] at hq ⊢
  have hk : (h'.objs[i]).1 = (h.objs[i]).1 := by
    have e1 : (h'.objs.map Prod.fst)[i]'(by simpa using h2) = (h.objs.map Prod.fst)[i]'(by simpa using h1) := by
      congr 1; exact a.keys
    simpa using e1
  have w' : FMap.Ok h'.objs := by unfold FMap.Ok at *; rw [a.keys]; exact w
  have g1 : FMap.get h.objs (h.objs[i]).1 = some (h.objs[i]).2 := FMap.get_of_mem w (List.getElem_mem h1)
  have g2 : FMap.get h'.objs (h'.objs[i]).1 = some (h'.objs[i]).2 := FMap.get_of_mem w' (List.getElem_mem h2)
  obtain ⟨m1, h3, _, h4⟩ := a.get _ _ g1
  rw [← hk, g2] at h3
  cases h3
  intro hm
  rw [a.marker] at hq
  rcases h4 with h4 | h4
  · exact hq (h4.trans hm)
  · exact hq h4

/-- Set the mark of one object. -/
def setMark (h : Heap) (a : Nat) : Heap := { h with objs := modify h.objs a (fun m => { m with mark := h.marker }) }

theorem setMark_more (h : Heap) (a : Nat) : More h (setMark h a) := by
  refine ⟨rfl, rfl, rfl, keys_modify h.objs a (fun m => { m with mark := h.marker }), ?_, ?_, ?_⟩
  · unfold setMark modify
    rw [List.map_map]
    apply List.map_congr_left
    intro e _
    simp only [Function.comp]
    split <;> rfl
  · intro x m hm
    simp only [setMark, get_modify, hm]
    split
    · exact ⟨_, rfl, rfl, .inr rfl⟩
    · exact ⟨_, rfl, rfl, .inl rfl⟩
  · intro x m' hm
    simp only [setMark, get_modify] at hm
    split at hm
    · rw [Option.map_eq_some_iff] at hm
      obtain ⟨m, h1, h2⟩ := hm
      exact ⟨m, h1, by rw [← h2], .inr (by rw [← h2])⟩
    · exact ⟨m', hm, rfl, .inl rfl⟩

theorem setMark_unmarked {h : Heap} (w : FMap.Ok h.objs) {a : Nat} {m : Marked} (hm : FMap.get h.objs a = some m)
    (hn : m.mark ≠ h.marker) : unmarked (setMark h a) < unmarked h := by
  unfold unmarked setMark modify
  simp only
  have hmem := FMap.mem_of_get hm
  revert hmem
  clear hm
  generalize h.objs = l at *
  induction l with
  | nil => intro h; cases h
  | cons e l ih =>
    intro hmem
    unfold FMap.Ok at w
    simp only [List.map_cons, List.nodup_cons] at w
    rw [List.map_cons, List.filter_cons, List.filter_cons]
    rcases List.mem_cons.mp hmem with h1 | h1
    · subst h1
      have htail : l.map (fun e => if e.1 = a then (e.1, { e.2 with mark := h.marker }) else e) = l := by
        conv_rhs => rw [← List.map_id l]
        apply List.map_congr_left
        intro x hx
        have : x.1 ≠ a := fun hxa => w.1 (List.mem_map.mpr ⟨x, hx, hxa⟩)
        simp [this]
      rw [htail]
      simp [hn]
    · have hne : e.1 ≠ a := fun he => w.1 (List.mem_map.mpr ⟨(a, m), h1, he.symm⟩)
      have := ih w.2 h1
      rw [if_neg hne]
      split
      · simp only [List.length_cons]; omega
      · exact this

/-- What marking from one or more objects `R` achieves, with `S` the string ids reported besides those of objects. -/
structure Did (R S : Nat → Prop) (s s' : MSt) : Prop where
  more : More s.h s'.h
  /-- the objects of `R` are marked -/
  all : ∀ a, R a → IsMarked s'.h a
  /-- only reachable objects are newly marked -/
  only : ∀ a, IsMarked s'.h a → IsMarked s.h a ∨ Reach s.h R a
  /-- newly marked objects have marked children -/
  next : ∀ a b, IsMarked s'.h a → ¬ IsMarked s.h a → Points s.h a b → IsMarked s'.h b
  /-- the strings of newly marked objects, and no others, are reported -/
  strs : ∀ i, i ∈ s'.strs ↔ i ∈ s.strs ∨ S i ∨ ∃ a m, IsMarked s'.h a ∧ ¬ IsMarked s.h a ∧ FMap.get s.h.objs a = some m ∧ i ∈ strOf m.cell

/-- No further string ids. -/
abbrev No : Nat → Prop := fun _ => False

theorem Did.refl (s : MSt) {R : Nat → Prop} (h : ∀ a, R a → IsMarked s.h a) : Did R No s s :=
  ⟨More.refl _, h, fun _ h => .inl h, fun _ _ h1 h2 => absurd h1 h2, fun i => by
    constructor
    · exact .inl
    · rintro (h | h | ⟨a, m, h1, h2, _⟩)
      · exact h
      · exact h.elim
      · exact absurd h1 h2⟩

theorem reach_more {h h' : Heap} (m : More h h') {R : Nat → Prop} {a : Nat} (r : Reach h' R a) : Reach h R a := by
  induction r with
  | root h1 => exact .root h1
  | step _ p ih => exact .step ih ((m.points _ _).mp p)

theorem Did.trans {R R' S S' : Nat → Prop} {s s' s'' : MSt} (a : Did R S s s') (b : Did R' S' s' s'') :
    Did (fun x => R x ∨ R' x) (fun x => S x ∨ S' x) s s'' := by
  refine ⟨a.more.trans b.more, ?_, ?_, ?_, ?_⟩
  · rintro x (h | h)
    · exact b.more.marked (a.all x h)
    · exact b.all x h
  · intro x h
    rcases b.only x h with h1 | h1
    · rcases a.only x h1 with h2 | h2
      · exact .inl h2
      · exact .inr (h2.mono fun _ h => .inl h)
    · exact .inr ((reach_more a.more h1).mono fun _ h => .inr h)
  · intro x y h1 h2 hp
    by_cases hx : IsMarked s'.h x
    · exact b.more.marked (a.next x y hx h2 hp)
    · exact b.next x y h1 hx ((a.more.points x y).mpr hp)
  · intro i
    rw [b.strs, a.strs]
    constructor
    · rintro ((h | h | ⟨x, m, h1, h2, h3, h4⟩) | h | ⟨x, m, h1, h2, h3, h4⟩)
      · exact .inl h
      · exact .inr (.inl (.inl h))
      · exact .inr (.inr ⟨x, m, b.more.marked h1, h2, h3, h4⟩)
      · exact .inr (.inl (.inr h))
      · obtain ⟨m1, h5, h6, _⟩ := a.more.back x m h3
        exact .inr (.inr ⟨x, m1, h1, fun h => h2 (a.more.marked h), h5, h6 ▸ h4⟩)
    · rintro (h | (h | h) | ⟨x, m, h1, h2, h3, h4⟩)
      · exact .inl (.inl h)
      · exact .inl (.inr (.inl h))
      · exact .inr (.inl h)
      · by_cases hx : IsMarked s'.h x
        · exact .inl (.inr (.inr ⟨x, m, hx, h2, h3, h4⟩))
        · obtain ⟨m1, h5, h6, _⟩ := a.more.get x m h3
          exact .inr (.inr ⟨x, m1, h1, hx, h5, h6.symm ▸ h4⟩)

theorem Did.weaken {R R' S S' : Nat → Prop} {s s' : MSt} (h : ∀ a, R a ↔ R' a) (hs : ∀ a, S a ↔ S' a) (d : Did R S s s') :
    Did R' S' s s' :=
  ⟨d.more, fun a ha => d.all a ((h a).mpr ha), fun a ha => (d.only a ha).imp id (fun r => r.mono fun x hx => (h x).mp hx),
    d.next, fun i => by rw [d.strs, hs]⟩

/-- Marking each object of a list, given that marking one works. -/
theorem mark_list {fuel : Nat} (one : ∀ (s : MSt) (a : Nat), FMap.Ok s.h.objs → Closed s.h → (FMap.get s.h.objs a).isSome →
      unmarked s.h < fuel → ∃ s', mark fuel s a = .ok s' ∧ Did (· = a) No s s') :
    ∀ (l : List Nat) (s : MSt), FMap.Ok s.h.objs → Closed s.h → (∀ a ∈ l, (FMap.get s.h.objs a).isSome) → unmarked s.h < fuel →
      ∃ s', l.foldlM (mark fuel) s = .ok s' ∧ Did (· ∈ l) No s s'
  | [], s, _, _, _, _ => ⟨s, rfl, Did.refl s (by simp)⟩
  | a :: l, s, w, c, hl, hf => by
    obtain ⟨s1, h1, d1⟩ := one s a w c (hl a (List.mem_cons_self ..)) hf
    have w1 : FMap.Ok s1.h.objs := by unfold FMap.Ok at *; rw [d1.more.keys]; exact w
    have hu := d1.more.unmarked_le w
    obtain ⟨s2, h2, d2⟩ := mark_list one l s1 w1 (d1.more.closed c)
      (fun b hb => by rw [d1.more.isSome]; exact hl b (List.mem_cons_of_mem _ hb)) (by omega)
    refine ⟨s2, by rw [List.foldlM_cons, h1]; exact h2, (d1.trans d2).weaken ?_ ?_⟩
    · intro x; simp
    · intro x; simp

/-- Marking one object terminates, and does what it should. -/
theorem mark_spec : ∀ (fuel : Nat) (s : MSt) (a : Nat), FMap.Ok s.h.objs → Closed s.h → (FMap.get s.h.objs a).isSome →
    unmarked s.h < fuel → ∃ s', mark fuel s a = .ok s' ∧ Did (· = a) No s s'
  | 0, _, _, _, _, _, h => by omega
  | fuel + 1, s, a, w, c, ha, hf => by
    obtain ⟨m, hm⟩ := Option.isSome_iff_exists.mp ha
    have hd : deref s.h a = .ok m := by simp [deref, hm]
    by_cases hmk : m.mark = s.h.marker
    · refine ⟨s, by simp [mark, hd, hmk], Did.refl s ?_⟩
      rintro x rfl
      exact ⟨m, hm, hmk⟩
    · have hdec := setMark_unmarked w hm hmk
      have mr := setMark_more s.h a
      have w1 : FMap.Ok (setMark s.h a).objs := by unfold FMap.Ok at *; rw [mr.keys]; exact w
      obtain ⟨s', h1, d⟩ := mark_list (mark_spec fuel) (children m.cell) ⟨setMark s.h a, strOf m.cell ++ s.strs⟩ w1 (mr.closed c)
        (by
          intro b hb
          simp only [mr.isSome]
          exact c a b (points_iff.mpr ⟨m, hm, hb⟩))
        (by simp only; omega)
      have hself : IsMarked (setMark s.h a) a := by
        refine ⟨{ m with mark := s.h.marker }, ?_, rfl⟩
        simp [setMark, get_modify, hm]
      have hother : ∀ x, x ≠ a → (IsMarked (setMark s.h a) x ↔ IsMarked s.h x) := by
        intro x hx
        unfold IsMarked
        simp [setMark, get_modify, hx]
      have hna : ¬ IsMarked s.h a := by
        rintro ⟨m1, h2, h3⟩
        rw [hm] at h2; cases h2
        exact hmk h3
      refine ⟨s', ?_, ?_⟩
      · simp only [mark, hd, Res.ok_bind, if_neg hmk]
        exact h1
      · refine ⟨mr.trans d.more, ?_, ?_, ?_, ?_⟩
        · rintro x rfl
          exact d.more.marked hself
        · intro x hx
          rcases d.only x hx with h2 | h2
          · by_cases hxa : x = a
            · exact .inr (hxa ▸ .root rfl)
            · exact .inl ((hother x hxa).mp h2)
          · right
            refine (reach_more mr h2).trans ?_
            intro y hy
            exact .step (.root rfl) (points_iff.mpr ⟨m, hm, hy⟩)
        · intro x y h2 h3 hp
          by_cases hxa : x = a
          · subst hxa
            obtain ⟨m1, h4, h5⟩ := points_iff.mp hp
            rw [hm] at h4; cases h4
            exact d.all y h5
          · exact d.next x y h2 (fun h => h3 ((hother x hxa).mp h)) ((mr.points x y).mpr hp)
        · intro i
          rw [d.strs]
          simp only [List.mem_append, false_or]
          constructor
          · rintro ((h | h) | ⟨x, m1, h2, h3, h4, h5⟩)
            · exact .inr ⟨a, m, d.more.marked hself, hna, hm, h⟩
            · exact .inl h
            · have hxa : x ≠ a := by rintro rfl; exact h3 hself
              obtain ⟨m2, h6, h7, _⟩ := mr.back x m1 h4
              exact .inr ⟨x, m2, h2, fun h => h3 ((hother x hxa).mpr h), h6, h7 ▸ h5⟩
          · rintro (h | ⟨x, m1, h2, h3, h4, h5⟩)
            · exact .inl (.inr h)
            · by_cases hxa : x = a
              · subst hxa
                rw [hm] at h4; cases h4
                exact .inl (.inl h5)
              · obtain ⟨m2, h6, h7, _⟩ := mr.get x m1 h4
                exact .inr ⟨x, m2, h2, fun h => h3 ((hother x hxa).mp h), h6, h7.symm ▸ h5⟩

theorem markAll_spec {α : Type} {fuel : Nat} (f : α → List Nat) :
    ∀ (l : List α) (s : MSt), FMap.Ok s.h.objs → Closed s.h → (∀ x ∈ l, ∀ a ∈ f x, (FMap.get s.h.objs a).isSome) →
      unmarked s.h < fuel → ∃ s', markAll fuel f s l = .ok s' ∧ Did (fun a => ∃ x ∈ l, a ∈ f x) No s s'
  | [], s, _, _, _, _ => ⟨s, rfl, Did.refl s (by simp)⟩
  | x :: l, s, w, c, hl, hf => by
    obtain ⟨s1, h1, d1⟩ := mark_list (mark_spec fuel) (f x) s w c (hl x (List.mem_cons_self ..)) hf
    have w1 : FMap.Ok s1.h.objs := by unfold FMap.Ok at *; rw [d1.more.keys]; exact w
    have hu := d1.more.unmarked_le w
    obtain ⟨s2, h2, d2⟩ := markAll_spec f l s1 w1 (d1.more.closed c)
      (fun b hb a ha => by rw [d1.more.isSome]; exact hl b (List.mem_cons_of_mem _ hb) a ha) (Nat.lt_of_le_of_lt hu hf)
    refine ⟨s2, ?_, (d1.trans d2).weaken ?_ ?_⟩
    · unfold markAll at h2 ⊢
      rw [List.foldlM_cons, h1]; exact h2
    · intro a; simp
    · intro a; simp

theorem listeners_spec {fuel : Nat} :
    ∀ (l : List (Nat × Nat)) (s : MSt), FMap.Ok s.h.objs → Closed s.h → (∀ x ∈ l, (FMap.get s.h.objs x.2).isSome) →
      unmarked s.h < fuel → ∃ s', l.foldlM (markListener fuel) s = .ok s' ∧
        Did (fun a => ∃ x ∈ l, a = x.2) (fun i => ∃ x ∈ l, i = x.1) s s'
  | [], s, _, _, _, _ => ⟨s, rfl, (Did.refl s (R := fun _ => False) (by simp)).weaken (by simp) (by simp)⟩
  | x :: l, s, w, c, hl, hf => by
    obtain ⟨s1, h1, d1⟩ := mark_spec fuel { s with strs := x.1 :: s.strs } x.2 w c (hl x (List.mem_cons_self ..)) hf
    have w1 : FMap.Ok s1.h.objs := by unfold FMap.Ok at *; rw [d1.more.keys]; exact w
    have hu := d1.more.unmarked_le w
    obtain ⟨s2, h2, d2⟩ := listeners_spec l s1 w1 (d1.more.closed c)
      (fun b hb => by rw [d1.more.isSome]; exact hl b (List.mem_cons_of_mem _ hb)) (Nat.lt_of_le_of_lt hu hf)
    have d1' : Did (· = x.2) (· = x.1) s s1 :=
      ⟨d1.more, d1.all, d1.only, d1.next, fun i => by
        rw [d1.strs]
        simp only [List.mem_cons, false_or]
        constructor
        · rintro ((h | h) | h)
          · exact .inr (.inl h)
          · exact .inl h
          · exact .inr (.inr h)
        · rintro (h | h | h)
          · exact .inl (.inr h)
          · exact .inl (.inl h)
          · exact .inr h⟩
    refine ⟨s2, ?_, (d1'.trans d2).weaken ?_ ?_⟩
    · rw [List.foldlM_cons]
      unfold markListener at *
      rw [h1]; exact h2
    · intro a; simp
    · intro a; simp

/-- The marking phase. -/
theorem markRoots_spec {fuel : Nat} (s : MSt) (r : Roots) (w : FMap.Ok s.h.objs) (c : Closed s.h)
    (hr : ∀ a, r.Mem a → (FMap.get s.h.objs a).isSome) (hf : unmarked s.h < fuel) :
    ∃ s', markRoots fuel s r = .ok s' ∧ Did r.Mem (fun i => ∃ x ∈ r.listeners, i = x.1) s s' := by
  obtain ⟨s1, h1, d1⟩ := markAll_spec (fuel := fuel) (fun e : Nat × Nat => [e.2]) r.gsyms s w c
    (fun x hx a ha => hr a (.inl ⟨x, hx, by simpa [eq_comm] using ha⟩)) hf
  have k1 := d1.more
  obtain ⟨s2, h2, d2⟩ := markAll_spec (fuel := fuel) (fun e : List Nat => e) r.stks s1
    (by unfold FMap.Ok at *; rw [k1.keys]; exact w) (k1.closed c)
    (fun x hx a ha => by rw [k1.isSome]; exact hr a (.inr (.inl ⟨x, hx, ha⟩))) (Nat.lt_of_le_of_lt (k1.unmarked_le w) hf)
  have k2 := k1.trans d2.more
  obtain ⟨s3, h3, d3⟩ := markAll_spec (fuel := fuel) (fun e : List Nat => e) r.lsymts s2
    (by unfold FMap.Ok at *; rw [k2.keys]; exact w) (k2.closed c)
    (fun x hx a ha => by rw [k2.isSome]; exact hr a (.inr (.inr (.inl ⟨x, hx, ha⟩)))) (Nat.lt_of_le_of_lt (k2.unmarked_le w) hf)
  have k3 := k2.trans d3.more
  obtain ⟨s4, h4, d4⟩ := markAll_spec (fuel := fuel)
    (fun e : Nat × VRoots => e.2.onconflict.toList ++ e.2.onconflictlost.toList ++ e.2.data.flatMap (fun x => [x.1, x.2])) r.vstigs s3
    (by unfold FMap.Ok at *; rw [k3.keys]; exact w) (k3.closed c)
    (fun x hx a ha => by
      rw [k3.isSome]
      refine hr a (.inr (.inr (.inr (.inl ⟨x, hx, ?_⟩))))
      simpa [eq_comm, or_assoc] using ha) (Nat.lt_of_le_of_lt (k3.unmarked_le w) hf)
  have k4 := k3.trans d4.more
  obtain ⟨s5, h5, d5⟩ := listeners_spec (fuel := fuel) r.listeners s4
    (by unfold FMap.Ok at *; rw [k4.keys]; exact w) (k4.closed c)
    (fun x hx => by rw [k4.isSome]; exact hr _ (.inr (.inr (.inr (.inr (.inl ⟨x, hx, rfl⟩)))))) (Nat.lt_of_le_of_lt (k4.unmarked_le w) hf)
  have k5 := k4.trans d5.more
  obtain ⟨s6, h6, d6⟩ := markAll_spec (fuel := fuel) (fun e : Nat × Nat => [e.1, e.2]) r.bcasts s5
    (by unfold FMap.Ok at *; rw [k5.keys]; exact w) (k5.closed c)
    (fun x hx a ha => by
      rw [k5.isSome]
      exact hr a (.inr (.inr (.inr (.inr (.inr (.inl ⟨x, hx, by simpa [eq_comm] using ha⟩))))))) (Nat.lt_of_le_of_lt (k5.unmarked_le w) hf)
  have k6 := k5.trans d6.more
  obtain ⟨s7, h7, d7⟩ := markAll_spec (fuel := fuel) (fun e : Nat × Nat => [e.1, e.2]) r.puts s6
    (by unfold FMap.Ok at *; rw [k6.keys]; exact w) (k6.closed c)
    (fun x hx a ha => by
      rw [k6.isSome]
      exact hr a (.inr (.inr (.inr (.inr (.inr (.inr (.inl ⟨x, hx, by simpa [eq_comm] using ha⟩)))))))) (Nat.lt_of_le_of_lt (k6.unmarked_le w) hf)
  have k7 := k6.trans d7.more
  obtain ⟨s8, h8, d8⟩ := markAll_spec (fuel := fuel) (fun e : Nat × Nat => [e.1, e.2]) r.queries s7
    (by unfold FMap.Ok at *; rw [k7.keys]; exact w) (k7.closed c)
    (fun x hx a ha => by
      rw [k7.isSome]
      exact hr a (.inr (.inr (.inr (.inr (.inr (.inr (.inr ⟨x, hx, by simpa [eq_comm] using ha⟩)))))))) (Nat.lt_of_le_of_lt (k7.unmarked_le w) hf)
  refine ⟨s8, ?_, ((((((((d1.trans d2).trans d3).trans d4).trans d5).trans d6).trans d7).trans d8)).weaken ?_ ?_⟩
  · simp only [markRoots, h1, h2, h3, h4, h5, h6, h7, h8, Res.ok_bind]
  · intro a
    unfold Roots.Mem
    simp only [or_assoc]
    refine or_congr (by simp [eq_comm]) (or_congr Iff.rfl (or_congr Iff.rfl (or_congr ?_ (or_congr (by simp [eq_comm]) (or_congr (by simp [eq_comm]) (or_congr (by simp [eq_comm]) (by simp [eq_comm])))))))
    simp [eq_comm, or_assoc]
  · intro i; simp

/-! ### The invariant and the collector -/

/-- Between collections: addresses are unique and below `brk`, all pointers are valid and every object carries the heap's
marker. -/
structure Inv (h : Heap) : Prop where
  ok : FMap.Ok h.objs
  brk : ∀ e ∈ h.objs, e.1 < h.brk
  closed : Closed h
  marks : ∀ e ∈ h.objs, e.2.mark = h.marker
  mlt : h.marker < U16

/-- The list of objects without the markers. -/
def contents (h : Heap) : List (Nat × Cell) := h.objs.map (fun e => (e.1, e.2.cell))

theorem gc_spec {h : Heap} {sm : Strman.SM Bytes} {r : Roots} (i : Inv h) (is : Strman.Inv sm)
    (hr : ∀ a, r.Mem a → (FMap.get h.objs a).isSome) (hfull : h.maxObjs ≤ h.objs.length) :
    ∃ h' sm', gc h sm r = .ok (h', sm') ∧ Inv h' ∧ Strman.Inv sm' ∧ h'.brk = h.brk ∧ h'.marker = (h.marker + 1) % U16 ∧
      (∃ l : List Nat, (∀ a, a ∈ l ↔ Reach h r.Mem a) ∧ contents h' = (contents h).filter (fun e => decide (e.1 ∈ l))) ∧
      (h'.maxObjs = if h'.objs = [] then 1 else (2 * h'.objs.length) % U32) ∧
      (∀ sid s p, FMap.get sm'.id2str sid = some (s, p) ↔ FMap.get sm.id2str sid = some (s, p) ∧
        (p = true ∨ (∃ x ∈ r.listeners, x.1 = sid) ∨
          ∃ a m, Reach h r.Mem a ∧ FMap.get h.objs a = some m ∧ sid ∈ strOf m.cell)) := by
  have hnone : ∀ a, ¬ IsMarked { h with marker := (h.marker + 1) % U16 } a := by
    rintro a ⟨m, h1, h2⟩
    have := i.marks _ (FMap.mem_of_get h1)
    simp only at this h2
    rw [this] at h2
    have := i.mlt
    simp only [U16] at *
    omega
  have hp : ∀ a b, Points { h with marker := (h.marker + 1) % U16 } a b ↔ Points h a b := fun a b => Iff.rfl
  have hreach : ∀ a, Reach { h with marker := (h.marker + 1) % U16 } r.Mem a ↔ Reach h r.Mem a := by
    intro a
    constructor
    · intro q
      induction q with
      | root h1 => exact .root h1
      | step _ p ih => exact .step ih p
    · intro q
      induction q with
      | root h1 => exact .root h1
      | step _ p ih => exact .step ih p
  obtain ⟨s, h1, d⟩ := markRoots_spec (fuel := h.objs.length + 1) ⟨{ h with marker := (h.marker + 1) % U16 }, []⟩ r i.ok i.closed hr
    (Nat.lt_succ_of_le (List.length_filter_le _ _))
  have hmark : ∀ a, IsMarked s.h a ↔ Reach h r.Mem a := by
    intro a
    constructor
    · intro q
      rcases d.only a q with h2 | h2
      · exact absurd h2 (hnone a)
      · exact (hreach a).mp h2
    · intro q
      induction q with
      | root h2 => exact d.all _ h2
      | step _ p ih => exact d.next _ _ ih (hnone _) p
  obtain ⟨sm', h2, is', hst, _⟩ := Strman.gc_spec is s.strs.reverse
  have hgc : gc h sm r = .ok ({ s.h with
      objs := s.h.objs.filter (fun e => e.2.mark = s.h.marker)
      maxObjs := if (s.h.objs.filter (fun e => e.2.mark = s.h.marker)).isEmpty then 1
        else (2 * (s.h.objs.filter (fun e => e.2.mark = s.h.marker)).length) % U32 }, sm') := by
    unfold gc
    rw [if_neg (by omega)]
    simp only [h1, Res.ok_bind, h2]
    rfl
  have okS : FMap.Ok s.h.objs := by unfold FMap.Ok at *; rw [d.more.keys]; exact i.ok
  have okF : FMap.Ok (s.h.objs.filter (fun e => decide (e.2.mark = s.h.marker))) := by
    unfold FMap.Ok at *
    exact okS.sublist (List.filter_sublist.map _)
  have hmemF : ∀ e, e ∈ s.h.objs.filter (fun e => decide (e.2.mark = s.h.marker)) ↔ e ∈ s.h.objs ∧ Reach h r.Mem e.1 := by
    intro e
    rw [List.mem_filter, decide_eq_true_eq, ← hmark]
    constructor
    · rintro ⟨h3, h4⟩
      exact ⟨h3, e.2, FMap.get_of_mem okS h3, h4⟩
    · rintro ⟨h3, m, h4, h5⟩
      rw [FMap.get_of_mem okS h3] at h4
      cases h4
      exact ⟨h3, h5⟩
  have hget : ∀ a, FMap.get (s.h.objs.filter (fun e => decide (e.2.mark = s.h.marker))) a ≠ none →
      FMap.get (s.h.objs.filter (fun e => decide (e.2.mark = s.h.marker))) a = FMap.get s.h.objs a ∧ Reach h r.Mem a := by
    intro a ha
    obtain ⟨m, hm⟩ := Option.ne_none_iff_exists'.mp ha
    have h3 := FMap.mem_of_get hm
    rw [hmemF] at h3
    rw [hm, FMap.get_of_mem okS h3.1]
    exact ⟨rfl, h3.2⟩
  have hget' : ∀ a, Reach h r.Mem a → (FMap.get (s.h.objs.filter (fun e => decide (e.2.mark = s.h.marker))) a).isSome := by
    intro a ha
    obtain ⟨m, h3, h4⟩ := (hmark a).mpr ha
    have : (a, m) ∈ s.h.objs.filter (fun e => decide (e.2.mark = s.h.marker)) := (hmemF _).mpr ⟨FMap.mem_of_get h3, ha⟩
    rw [FMap.get_of_mem okF this]
    rfl
  refine ⟨_, _, hgc, ⟨okF, ?_, ?_, ?_, ?_⟩, is', d.more.brk, d.more.marker, ?_, ?_, ?_⟩
  · intro e he
    have : e.1 ∈ s.h.objs.map Prod.fst := List.mem_map.mpr ⟨e, (List.mem_filter.mp he).1, rfl⟩
    rw [d.more.keys] at this
    obtain ⟨e', h3, h4⟩ := List.mem_map.mp this
    simp only [d.more.brk]
    rw [← h4]
    exact i.brk e' h3
  · intro a b p
    obtain ⟨m, h3, h4⟩ := points_iff.mp p
    simp only at h3
    have := hget a (by rw [h3]; simp)
    rw [h3] at this
    apply hget'
    refine .step this.2 ?_
    rw [← hp, ← d.more.points]
    exact points_iff.mpr ⟨m, this.1.symm, h4⟩
  · intro e he
    simpa using (List.mem_filter.mp he).2
  · simp only [d.more.marker]
    exact Nat.mod_lt _ (by decide)
  · refine ⟨(s.h.objs.filter (fun e => decide (e.2.mark = s.h.marker))).map Prod.fst, ?_, ?_⟩
    · intro a
      rw [List.mem_map]
      constructor
      · rintro ⟨e, h3, rfl⟩
        exact ((hmemF e).mp h3).2
      · intro h3
        obtain ⟨m, h4⟩ := Option.isSome_iff_exists.mp (hget' a h3)
        exact ⟨_, FMap.mem_of_get h4, rfl⟩
    · have hc : contents h = contents s.h := by
        have l1 := d.more.keys
        have l2 := d.more.cells
        simp only at l1 l2
        have hz : ∀ l : List (Nat × Marked), l.map (fun e => (e.1, e.2.cell)) = (l.map Prod.fst).zip (l.map (fun e => e.2.cell)) := by
          intro l
          induction l with
          | nil => rfl
          | cons e l ih => simp [ih]
        unfold contents
        rw [hz, hz, l1, l2]
      rw [hc]
      unfold contents
      rw [List.filter_map]
      congr 1
      apply List.filter_congr
      intro e he
      simp only [Function.comp]
      rw [decide_eq_decide]
      rw [List.mem_map]
      constructor
      · intro h3
        exact ⟨e, List.mem_filter.mpr ⟨he, by simpa using h3⟩, rfl⟩
      · rintro ⟨e', h3, h4⟩
        have h5 := (hmemF e').mp h3
        have h6 := (hmemF e).mpr ⟨he, h4 ▸ h5.2⟩
        simpa using (List.mem_filter.mp h6).2
  · simp only [List.isEmpty_iff]
  · intro sid st p
    rw [hst]
    refine and_congr Iff.rfl (or_congr Iff.rfl ?_)
    rw [List.mem_reverse, d.strs]
    simp only [List.not_mem_nil, false_or]
    refine or_congr (by simp [eq_comm]) ?_
    constructor
    · rintro ⟨a, m, h3, _, h4, h5⟩
      exact ⟨a, m, (hmark a).mp h3, h4, h5⟩
    · rintro ⟨a, m, h3, h4, h5⟩
      exact ⟨a, m, (hmark a).mpr h3, hnone a, h4, h5⟩

end Buzz.Heap
