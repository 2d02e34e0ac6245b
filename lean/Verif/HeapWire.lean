import Verif.VMStep
import Verif.Props.Wire

/-
Serialisation of heap objects and deserialisation into the heap, src/buzz/buzztype.c 518-629.
-/
namespace Buzz.HeapWire

open Buzz.F32 Buzz.Msg Buzz.Heap Buzz.Value Buzz.Props

abbrev SM := Strman.SM Bytes

/-- `buzzobj_serialize` (523-569) and `buzzobj_serialize_tableelem` (518-521) on the object at `a`.  The first argument bounds the recursion
depth (a cyclic table is serialised for ever). -/
def hser (h : Heap) : Nat → Nat → Res Bytes
  | 0, _ => .hang
  | d + 1, a => do
    let m ← deref h a
    match m.cell with
    | .atom .nil => pure (ser8 0)
    | .atom (.int v) => pure (ser8 1 ++ ser32 .little (u32OfInt v))
    | .atom (.flt f) => do
      let b ← serFloat .little f
      pure (ser8 2 ++ b)
    | .atom (.str _ s) => pure (ser8 3 ++ serString .little s)
    | .atom (.user _) => pure (ser8 6)
    | .atom _ => .ub
    | .tab t => do
      let b ← (Dict.entries t).foldlM (fun acc e => do
        let x ← hser h d e.2.1
        let y ← hser h d e.2.2
        pure (acc ++ (x ++ y))) []
      pure (ser8 4 ++ (ser8 t.size ++ b))
    | .clo n r l => pure (ser8 5 ++ if l.length = 1 then ser8 (if n then 1 else 0) ++ ser32 .little (u32OfInt r) else [])

/-- What deserialisation leaves: heap, strings, the object assigned to `*data` if any, and the position returned (`none` for -1). -/
structure Got where
  h : Heap
  sm : SM
  data : Option Nat
  pos : Option Nat

/-- The loop over the entries of the table at `a` (607-615). -/
def hloop (sc : Bytes → Bytes → Int) (dv : Nat → Heap → SM → Res Got) (a : Nat) : Nat → Nat → Heap → SM → Res Got
  | 0, p, h, sm => .ok ⟨h, sm, some a, some p⟩
  | n + 1, p, h, sm => do
    let k ← dv p h sm
    match k.pos, k.data with
    | some p, some ka => do
      let v ← dv p k.h k.sm
      match v.pos, v.data with
      | some p, some va => do
        let m ← deref v.h a
        let km ← deref v.h ka
        match m.cell with
        | .tab t => do
          let t' ← Table.set sc t (objOf ka km.cell) (ka, va)
          hloop sc dv a n p (write v.h a (.tab t')) v.sm
        | _ => .ub
      | _, _ => .ok ⟨v.h, v.sm, some a, none⟩
    | _, _ => .ok ⟨k.h, k.sm, some a, none⟩

/-- `buzzobj_deserialize` (574-629) into a heap.  The object is allocated before its content is read (582); where reading succeeds the
model allocates it with its content.  A string that cannot be read leaves an object whose characters are the null pointer (594-596); the
model does not allocate it and leaves `*data` unset, and using it is undefined.  The first number bounds the recursion depth. -/
def hdeser (sc : Bytes → Bytes → Int) (buf : Bytes) : Nat → Nat → Heap → SM → Res Got
  | 0, _, _, _ => .hang
  | d + 1, pos, h, sm => do
    let r ← deser8 buf pos
    match r with
    | none => .ok ⟨h, sm, none, none⟩
    | some (t, p) =>
      match t with
      | 0 => .ok ⟨(newobj h (.atom .nil)).1, sm, some (newobj h (.atom .nil)).2, some p⟩
      | 1 => do
        let r ← deser32 .little buf p
        match r with
        | none => .ok ⟨(newobj h (.atom (.int 0))).1, sm, some (newobj h (.atom (.int 0))).2, none⟩
        | some (n, p) => .ok ⟨(newobj h (.atom (.int (intOfU32 n)))).1, sm, some (newobj h (.atom (.int (intOfU32 n)))).2, some p⟩
      | 2 => do
        let r ← deserFloat .little buf p
        match r with
        | none => .ok ⟨(newobj h (.atom (.flt (.fin 0)))).1, sm, some (newobj h (.atom (.flt (.fin 0)))).2, none⟩
        | some (f, p) => .ok ⟨(newobj h (.atom (.flt f))).1, sm, some (newobj h (.atom (.flt f))).2, some p⟩
      | 3 => do
        let r ← deserString .little buf p
        match r with
        | none => .ok ⟨h, sm, none, none⟩
        | some (s, p) => do
          let q ← Strman.register sm (cstr s) false
          .ok ⟨(newobj h (.atom (.str q.2 (cstr s)))).1, q.1, some (newobj h (.atom (.str q.2 (cstr s)))).2, some p⟩
      | 4 => do
        let r ← deser8 buf p
        match r with
        | none => .ok ⟨(newobj h (.tab Table.new)).1, sm, some (newobj h (.tab Table.new)).2, none⟩
        | some (n, p) => hloop sc (hdeser sc buf d) (newobj h (.tab Table.new)).2 n p (newobj h (.tab Table.new)).1 sm
      | 5 => do
        let c := newobj h (.clo false 0 [])
        let n := newobj c.1 (.atom .nil)
        let r ← deser8 buf p
        match r with
        | none => .ok ⟨write n.1 c.2 (.clo false 0 [n.2]), sm, some c.2, none⟩
        | some (nat, p) => do
          let r ← deser32 .little buf p
          match r with
          | none => .ok ⟨write n.1 c.2 (.clo (decide (nat ≠ 0)) 0 [n.2]), sm, some c.2, none⟩
          | some (ref, p) => .ok ⟨write n.1 c.2 (.clo (decide (nat ≠ 0)) (intOfU32 ref) [n.2]), sm, some c.2, some p⟩
      | 6 => .ok ⟨(newobj h (.atom (.user 0))).1, sm, some (newobj h (.atom (.user 0))).2, none⟩
      | _ => .ub

/-! ### What an object stands for -/

mutual
/-- The object at `a` stands for the tree `v`; all objects of it are at addresses from `lo` on.  The entries of a table come in any order. -/
inductive Repr (h : Heap) (lo : Nat) : Nat → Val → Prop where
  | nil {a : Nat} : lo ≤ a → Holds h a (.atom .nil) → Repr h lo a .nil
  | int {a : Nat} {v : Int} : lo ≤ a → Holds h a (.atom (.int v)) → Repr h lo a (.int v)
  | flt {a : Nat} {f : Flt} : lo ≤ a → Holds h a (.atom (.flt f)) → Repr h lo a (.flt f)
  | str {a sid : Nat} {s : Bytes} : lo ≤ a → Holds h a (.atom (.str sid s)) → Repr h lo a (.str s)
  | user {a p : Nat} : lo ≤ a → Holds h a (.atom (.user p)) → Repr h lo a (.user p)
  | table {a : Nat} {t : Table.Tbl (Nat × Nat)} {l : List (Obj × (Nat × Nat))} {es : Ents} : lo ≤ a → Holds h a (.tab t) → l.Perm (Dict.entries t) →
      ReprE h lo l es → Repr h lo a (.table es)
  | clo {a : Nat} {n : Bool} {r : Int} {l : List Nat} : lo ≤ a → Holds h a (.clo n r l) → Repr h lo a (.clo (if n then 1 else 0) (u32OfInt r) l.length)
/-- The same for the entries of a table. -/
inductive ReprE (h : Heap) (lo : Nat) : List (Obj × (Nat × Nat)) → Ents → Prop where
  | nil : ReprE h lo [] .nil
  | cons {ko : Obj} {ka va : Nat} {l : List (Obj × (Nat × Nat))} {k v : Val} {es : Ents} : Holds h ka (.atom ko) → Repr h lo ka k → Repr h lo va v → ReprE h lo l es →
      ReprE h lo ((ko, (ka, va)) :: l) (.cons k v es)
end

mutual
theorem Repr.mono {h h' : Heap} {lo lo' : Nat} (hl : lo' ≤ lo) (hh : ∀ a c, lo ≤ a → Holds h a c → Holds h' a c) :
    ∀ {a : Nat} {v : Val}, Repr h lo a v → Repr h' lo' a v
  | _, _, .nil h1 h2 => .nil (by omega) (hh _ _ h1 h2)
  | _, _, .int h1 h2 => .int (by omega) (hh _ _ h1 h2)
  | _, _, .flt h1 h2 => .flt (by omega) (hh _ _ h1 h2)
  | _, _, .str h1 h2 => .str (by omega) (hh _ _ h1 h2)
  | _, _, .user h1 h2 => .user (by omega) (hh _ _ h1 h2)
  | _, _, .table h1 h2 h3 h4 => .table (by omega) (hh _ _ h1 h2) h3 (h4.mono hl hh)
  | _, _, .clo h1 h2 => .clo (by omega) (hh _ _ h1 h2)
theorem ReprE.mono {h h' : Heap} {lo lo' : Nat} (hl : lo' ≤ lo) (hh : ∀ a c, lo ≤ a → Holds h a c → Holds h' a c) :
    ∀ {l : List (Obj × (Nat × Nat))} {es : Ents}, ReprE h lo l es → ReprE h' lo' l es
  | _, _, .nil => .nil
  | _, _, .cons h1 h2 h3 h4 => .cons (hh _ _ (h2.lo) h1) (h2.mono hl hh) (h3.mono hl hh) (h4.mono hl hh)
theorem Repr.lo {h : Heap} {lo : Nat} : ∀ {a : Nat} {v : Val}, Repr h lo a v → lo ≤ a
  | _, _, .nil h1 _ => h1
  | _, _, .int h1 _ => h1
  | _, _, .flt h1 _ => h1
  | _, _, .str h1 _ => h1
  | _, _, .user h1 _ => h1
  | _, _, .table h1 _ _ _ => h1
  | _, _, .clo h1 _ => h1
end


/-! ### Serialising -/

theorem holds_deref {h : Heap} {a : Nat} {c : Cell} (hh : Holds h a c) : ∃ m, deref h a = .ok m ∧ m.cell = c := by
  obtain ⟨m, h1, h2⟩ := hh
  exact ⟨m, by unfold deref; rw [h1], h2⟩

/-- Tables know the number of their entries (C03). -/
def Sized (h : Heap) : Prop := ∀ a t, Holds h a (.tab t) → t.size = (Dict.entries t).length % U32

/-- Two lists of entries, in whatever order, stand for trees the serialiser writes in the order of the first. -/
def SerOk (h : Heap) (lo a : Nat) : Prop := ∃ v d, Repr h lo a v ∧ ∀ d', d ≤ d' → hser h d' a = ser v

theorem serEnts_fold {h : Heap} {lo : Nat} (l : List (Obj × (Nat × Nat))) (hl : ∀ e ∈ l, Holds h e.2.1 (.atom e.1) ∧ SerOk h lo e.2.1 ∧ SerOk h lo e.2.2) :
    ∃ es d, ReprE h lo l es ∧ ∀ d', d ≤ d' → ∀ acc, l.foldlM (fun acc e => do
        let x ← hser h d' e.2.1
        let y ← hser h d' e.2.2
        pure (acc ++ (x ++ y))) acc = (do
        let b ← serEnts es
        pure (acc ++ b)) := by
  induction l with
  | nil => exact ⟨.nil, 0, .nil, fun d' _ acc => by simp [serEnts]⟩
  | cons e l ih =>
    obtain ⟨es, d, h1, h2⟩ := ih (fun x hx => hl x (List.mem_cons_of_mem _ hx))
    obtain ⟨h3, ⟨k, dk, h4, h5⟩, v, dv, h6, h7⟩ := hl e (List.mem_cons_self ..)
    refine ⟨.cons k v es, max d (max dk dv), .cons h3 h4 h6 h1, fun d' hd acc => ?_⟩
    rw [List.foldlM_cons, h5 d' (by omega), h7 d' (by omega)]
    cases hk : ser k with
    | ok x =>
      cases hv : ser v with
      | ok y =>
        simp only [Res.ok_bind, Res.pure_eq]
        have := h2 d' (by omega) (acc ++ (x ++ y))
        simp only [Res.pure_eq] at this
        rw [this]
        cases hr : serEnts es <;> simp [serEnts, hk, hv, hr]
      | _ => simp [serEnts, hk, hv]
    | _ => simp [serEnts, hk]

mutual
/-- An object that stands for a finite tree is serialised as a tree it stands for. -/
theorem hser_spec {h : Heap} (hs : Sized h) {lo : Nat} : ∀ {a : Nat} {v : Val}, Repr h lo a v → SerOk h lo a
  | a, .nil, .nil h1 h2 => by
    refine ⟨.nil, 1, .nil h1 h2, fun d' hd => ?_⟩
    obtain ⟨d, rfl⟩ : ∃ d, d' = d + 1 := ⟨d' - 1, by omega⟩
    obtain ⟨m, h3, h4⟩ := holds_deref h2
    simp [hser, h3, h4, ser]
  | a, .int v, .int h1 h2 => by
    refine ⟨.int v, 1, .int h1 h2, fun d' hd => ?_⟩
    obtain ⟨d, rfl⟩ : ∃ d, d' = d + 1 := ⟨d' - 1, by omega⟩
    obtain ⟨m, h3, h4⟩ := holds_deref h2
    simp [hser, h3, h4, ser]
  | a, .flt v, .flt h1 h2 => by
    refine ⟨.flt v, 1, .flt h1 h2, fun d' hd => ?_⟩
    obtain ⟨d, rfl⟩ : ∃ d, d' = d + 1 := ⟨d' - 1, by omega⟩
    obtain ⟨m, h3, h4⟩ := holds_deref h2
    simp [hser, h3, h4, ser]
  | a, .str v, .str h1 h2 => by
    refine ⟨.str v, 1, .str h1 h2, fun d' hd => ?_⟩
    obtain ⟨d, rfl⟩ : ∃ d, d' = d + 1 := ⟨d' - 1, by omega⟩
    obtain ⟨m, h3, h4⟩ := holds_deref h2
    simp [hser, h3, h4, ser]
  | a, .user v, .user h1 h2 => by
    refine ⟨.user v, 1, .user h1 h2, fun d' hd => ?_⟩
    obtain ⟨d, rfl⟩ : ∃ d, d' = d + 1 := ⟨d' - 1, by omega⟩
    obtain ⟨m, h3, h4⟩ := holds_deref h2
    simp [hser, h3, h4, ser]
  | a, _, .clo (n := n) (r := r) (l := l) h1 h2 => by
    refine ⟨_, 1, .clo h1 h2, fun d' hd => ?_⟩
    obtain ⟨d, rfl⟩ : ∃ d, d' = d + 1 := ⟨d' - 1, by omega⟩
    obtain ⟨m, h3, h4⟩ := holds_deref h2
    simp [hser, h3, h4, ser]
  | a, _, .table (t := t) (l := l) h1 h2 h3 h4 => by
    obtain ⟨es, d, g1, g2⟩ := serEnts_fold (Dict.entries t) (fun e he => hserE_spec hs h4 e (h3.mem_iff.mpr he))
    refine ⟨.table es, d + 1, .table h1 h2 (List.Perm.refl _) g1, fun d' hd => ?_⟩
    obtain ⟨d', rfl⟩ : ∃ d, d' = d + 1 := ⟨d' - 1, by omega⟩
    obtain ⟨m, h5, h6⟩ := holds_deref h2
    have hl : es.toList.length = (Dict.entries t).length := by
      clear g2
      generalize Dict.entries t = x at g1
      exact lenE g1
    have hz : ser8 t.size = ser8 es.toList.length := by
      rw [hs a t h2, hl]
      unfold ser8 byte U32
      have : (Dict.entries t).length % 4294967296 % 256 = (Dict.entries t).length % 256 := by omega
      rw [this]
    simp only [hser, h5, h6, Res.ok_bind, ser, g2 d' (by omega), List.nil_append, hz]
    cases serEnts es <;> simp
theorem hserE_spec {h : Heap} (hs : Sized h) {lo : Nat} : ∀ {l : List (Obj × (Nat × Nat))} {es : Ents}, ReprE h lo l es →
    ∀ e ∈ l, Holds h e.2.1 (.atom e.1) ∧ SerOk h lo e.2.1 ∧ SerOk h lo e.2.2
  | _, _, .nil => fun e he => by cases he
  | _, _, .cons h1 h2 h3 h4 => fun e he => by
    rcases List.mem_cons.mp he with rfl | he
    · exact ⟨h1, hser_spec hs h2, hser_spec hs h3⟩
    · exact hserE_spec hs h4 e he
theorem lenE {h : Heap} {lo : Nat} : ∀ {l : List (Obj × (Nat × Nat))} {es : Ents}, ReprE h lo l es → es.toList.length = l.length
  | _, _, .nil => rfl
  | _, _, .cons _ _ _ h4 => by simp [Ents.toList, lenE h4]
end

/-! ### Reading back -/

theorem dict_set_new {K V : Type} (hash : K → Nat) (eqk : K → K → Bool) {d : Dict.Dict K V} (hn : d.buckets.length ≠ 0) (k : K) (v : V)
    (hk : ∀ e ∈ Dict.entries d, eqk k e.1 = false) :
    ∃ r, Dict.set hash eqk d k v = .ok r ∧ r.1.buckets.length = d.buckets.length ∧ (Dict.entries r.1).Perm (Dict.entries d ++ [(k, v)]) ∧
      r.1.size = (d.size + 1) % U32 := by
  obtain ⟨h, b, h1, h2, h3⟩ := VM.slot_bucket hash hn k
  obtain ⟨l, r, h4, h5⟩ := Dict.split_at h3
  unfold Dict.set
  rw [h1, Res.ok_bind, h2, Res.ok_bind]
  have key : ∀ x : List (K × V), (Dict.entries (⟨d.buckets.set h (some (b.getD [] ++ x)), (d.size + 1) % U32⟩ : Dict.Dict K V)).Perm (Dict.entries d ++ x) := by
    intro x
    have e1 : Dict.entries d = Dict.entries (⟨l ++ b :: r, d.size⟩ : Dict.Dict K V) := by rw [← h4]
    rw [e1, h4, ← h5, Dict.set_split, Dict.entries_split, Dict.entries_split]
    simp only [Option.getD_some, List.append_assoc]
    refine List.Perm.append_left _ (List.Perm.append_left _ ?_)
    exact List.perm_append_comm
  cases b with
  | none =>
    refine ⟨_, rfl, by simp, ?_, rfl⟩
    have := key [(k, v)]
    simpa using this
  | some es =>
    have hf : es.find? (fun e => eqk k e.1) = none := by
      rw [List.find?_eq_none]
      intro e he
      simp [hk e (VM.bucket_entries h3 e he)]
    simp only [hf]
    refine ⟨_, rfl, by simp, ?_, rfl⟩
    have := key [(k, v)]
    simpa using this

/-- Heap and strings satisfy the memory invariant. -/
structure WInv (h : Heap) (sm : SM) : Prop where
  heap : Inv h
  strings : Strman.Inv sm
  cells : ∀ a c, Holds h a c → VM.CellOk h sm c

/-- The heap and the strings only grow. -/
structure Grow (h : Heap) (sm : SM) (h' : Heap) (sm' : SM) : Prop where
  ext : Ext h h'
  strs : ∀ j x, Strman.get sm j = some x → Strman.get sm' j = some x

theorem Grow.refl (h : Heap) (sm : SM) : Grow h sm h sm := ⟨Ext.refl h, fun _ _ h => h⟩

theorem Grow.trans {h h' h'' : Heap} {sm sm' sm'' : SM} (a : Grow h sm h' sm') (b : Grow h' sm' h'' sm'') : Grow h sm h'' sm'' :=
  ⟨a.ext.trans b.ext, fun j x hx => b.strs j x (a.strs j x hx)⟩

theorem Ext.holds {h h' : Heap} (i : Inv h) (e : Ext h h') {a : Nat} {c : Cell} (hh : Holds h a c) : Holds h' a c := by
  obtain ⟨m, h1, h2⟩ := hh
  exact ⟨m, e.get i h1, h2⟩

theorem holds_lt {h : Heap} (i : Inv h) {a : Nat} {c : Cell} (hh : Holds h a c) : a < h.brk := by
  obtain ⟨m, h1, h2⟩ := hh
  exact lt_brk i h1

theorem WInv.alloc {h : Heap} {sm : SM} (w : WInv h sm) {c : Cell} (k : VM.CellOk h sm c) : WInv (newobj h c).1 sm := by
  refine ⟨inv_alloc w.heap k.children, w.strings, fun a c' hh => ?_⟩
  have hm : ∀ {c' : Cell}, VM.CellOk h sm c' → VM.CellOk (newobj h c).1 sm c' := fun {c'} k =>
    k.mono (fun a o h => VM.holds_old w.heap h) (fun a h => VM.live_old w.heap h) (fun _ _ h => h)
  rcases (holds_alloc w.heap).mp hh with ⟨_, rfl⟩ | hh
  · exact hm k
  · exact hm (w.cells a c' hh)

theorem grow_alloc {h : Heap} {sm : SM} (w : WInv h sm) (c : Cell) : Grow h sm (newobj h c).1 sm :=
  ⟨ext_alloc w.heap _ _, fun _ _ h => h⟩

theorem WInv.strings_grow {h : Heap} {sm sm' : SM} (w : WInv h sm) (i : Strman.Inv sm') (g : ∀ j x, Strman.get sm j = some x → Strman.get sm' j = some x) :
    WInv h sm' :=
  ⟨w.heap, i, fun a c hh => (w.cells a c hh).mono (fun _ _ h => h) (fun _ h => h) g⟩

/-- What reading a value leaves. -/
structure Landed (h : Heap) (sm : SM) (n : Nat) (v : Val) (h' : Heap) (sm' : SM) (a : Nat) : Prop where
  inv : WInv h' sm'
  grow : Grow h sm h' sm'
  count : sm'.id2str.length ≤ sm.id2str.length + n
  repr : Repr h' h.brk a v
  sized : Sized h → Sized h'

theorem sized_alloc {h : Heap} (i : Inv h) {c : Cell} (hc : ∀ t, c = .tab t → t.size = (Dict.entries t).length % U32) (hs : Sized h) : Sized (newobj h c).1 := by
  intro a t hh
  rcases (holds_alloc i).mp hh with ⟨_, h⟩ | hh
  · exact hc t h.symm
  · exact hs a t hh

theorem landed_alloc {h : Heap} {sm sm' : SM} {n : Nat} {v : Val} {c : Cell} (w : WInv h sm) (i : Strman.Inv sm')
    (g : ∀ j x, Strman.get sm j = some x → Strman.get sm' j = some x) (hn : sm'.id2str.length ≤ sm.id2str.length + n)
    (k : VM.CellOk h sm' c) (hc : ∀ t, c = .tab t → t.size = (Dict.entries t).length % U32)
    (hr : Repr (newobj h c).1 h.brk (newobj h c).2 v) : Landed h sm n v (newobj h c).1 sm' (newobj h c).2 where
  inv := (w.strings_grow i g).alloc k
  grow := ⟨ext_alloc w.heap _ _, g⟩
  count := hn
  repr := hr
  sized := sized_alloc w.heap hc

mutual
/-- Native flags are 0 or 1, as in every closure of the machine. -/
def Bools : Val → Prop
  | .clo n _ _ => n ≤ 1
  | .table es => BoolsE es
  | _ => True
def BoolsE : Ents → Prop
  | .nil => True
  | .cons k v r => Bools k ∧ Bools v ∧ BoolsE r
end

mutual
theorem Repr.bools {h : Heap} {lo : Nat} : ∀ {a : Nat} {v : Val}, Repr h lo a v → Bools v
  | _, _, .nil _ _ => trivial
  | _, _, .int _ _ => trivial
  | _, _, .flt _ _ => trivial
  | _, _, .str _ _ => trivial
  | _, _, .user _ _ => trivial
  | _, _, .clo (n := n) _ _ => by cases n <;> simp [Bools]
  | _, _, .table _ _ _ h4 => h4.bools
theorem ReprE.bools {h : Heap} {lo : Nat} : ∀ {l : List (Obj × (Nat × Nat))} {es : Ents}, ReprE h lo l es → BoolsE es
  | _, _, .nil => trivial
  | _, _, .cons _ h2 h3 h4 => ⟨h2.bools, h3.bools, h4.bools⟩
end

mutual
/-- Number of strings in a tree. -/
def strs : Val → Nat
  | .str _ => 1
  | .table es => strsE es
  | _ => 0
def strsE : Ents → Nat
  | .nil => 0
  | .cons k v r => strs k + strs v + strsE r
end

/-- The key object and the key value are the same key. -/
def SameKey (ko : Obj) (k : Val) : Prop := ko = keyObj k ∨ ∃ sid s, ko = .str sid s ∧ k = .str s

theorem cmp_same {sc : Bytes → Bytes → Int} {ko ko' : Obj} {k k' : Val} (h : SameKey ko k) (h' : SameKey ko' k') (hk : KeyOk k) (hk' : KeyOk k') :
    Obj.cmp sc ko ko' = Obj.cmp sc (keyObj k) (keyObj k') := by
  have lft : ∀ o, Obj.cmp sc ko o = Obj.cmp sc (keyObj k) o := by
    intro o
    rcases h with rfl | ⟨sid, s, rfl, rfl⟩
    · rfl
    · cases o <;> rfl
  have rgt : ∀ o, Obj.cmp sc o ko' = Obj.cmp sc o (keyObj k') := by
    intro o
    rcases h' with rfl | ⟨sid, s, rfl, rfl⟩
    · rfl
    · cases o <;> rfl
  rw [lft, rgt]

/-- A received key is stored under its own content, and can be hashed. -/
theorem repr_key {h : Heap} {sm : SM} (w : WInv h sm) {lo a : Nat} {k : Val} (r : Repr h lo a k) (hk : KeyOk k) :
    ∃ ko, Holds h a (.atom ko) ∧ SameKey ko k ∧ VM.Hashable ko := by
  cases r with
  | nil => simp [KeyOk] at hk
  | int _ h2 => exact ⟨_, h2, .inl rfl, rfl, by simp [Obj.tableHash], fun v hv => by cases hv; exact w.cells _ _ h2⟩
  | @flt _ f _ h2 =>
    refine ⟨_, h2, .inl rfl, rfl, ?_, fun v hv => by cases hv⟩
    have := keyCheck_ok hk
    simp only [keyCheck] at this
    simp only [Obj.tableHash]
    cases hq : Obj.toU32 f with
    | ok n => simp
    | ub => rw [hq] at this; simp at this
    | abort => rw [hq] at this; simp at this
    | hang => rw [hq] at this; simp at this
  | str _ h2 => exact ⟨_, h2, .inr ⟨_, _, rfl, rfl⟩, rfl, by simp [Obj.tableHash], fun v hv => by cases hv⟩
  | user => simp [KeyOk] at hk
  | table => simp [KeyOk] at hk
  | clo => simp [KeyOk] at hk

theorem ReprE.snoc {h : Heap} {lo : Nat} {ko : Obj} {ka va : Nat} {k v : Val} (h1 : Holds h ka (.atom ko)) (h2 : Repr h lo ka k) (h3 : Repr h lo va v) :
    ∀ {l : List (Obj × (Nat × Nat))} {acc : List (Val × Val)}, ReprE h lo l (Ents.ofList acc) → ReprE h lo (l ++ [(ko, (ka, va))]) (Ents.ofList (acc ++ [(k, v)]))
  | _, [], .nil => .cons h1 h2 h3 .nil
  | _, _ :: _, .cons g1 g2 g3 g4 => .cons g1 g2 g3 (g4.snoc h1 h2 h3)

/-- Each entry stands for one of the list. -/
theorem ReprE.mem {h : Heap} {lo : Nat} : ∀ {l : List (Obj × (Nat × Nat))} {acc : List (Val × Val)}, ReprE h lo l (Ents.ofList acc) →
    ∀ e ∈ l, Holds h e.2.1 (.atom e.1) ∧ ∃ x ∈ acc, Repr h lo e.2.1 x.1
  | _, [], .nil => fun e he => by cases he
  | _, (k, v) :: r, .cons g1 g2 g3 g4 => fun e he => by
    rcases List.mem_cons.mp he with rfl | he
    · exact ⟨g1, _, List.mem_cons_self .., g2⟩
    · obtain ⟨q1, x, q2, q3⟩ := g4.mem e he
      exact ⟨q1, x, List.mem_cons_of_mem _ q2, q3⟩

theorem hash_ok {k : Obj} (hk : VM.Hashable k) : ∃ n, Obj.tableHash k = .ok n := by
  have := VM.hash_out (C := fun b => b = .ub) hk.1 (fun _ _ _ => rfl)
  cases hq : Obj.tableHash k with
  | ok n => exact ⟨n, rfl⟩
  | ub => exact absurd hq hk.2.1
  | abort => rw [hq] at this; cases this
  | hang => rw [hq] at this; cases this

/-- Storing a new key. -/
theorem table_set_new {sc : Bytes → Bytes → Int} {h : Heap} {sm : SM} (w : WInv h sm) {a : Nat} {t : Table.Tbl (Nat × Nat)} (ht : Holds h a (.tab t))
    {ko : Obj} {ka va : Nat} (hk : VM.Hashable ko) (hka : Holds h ka (.atom ko)) (hva : VM.Live h va)
    (hne : ∀ e ∈ Dict.entries t, Table.keq sc ko e.1 = false) :
    ∃ t', Table.set sc t ko (ka, va) = .ok t' ∧ (Dict.entries t').Perm (Dict.entries t ++ [(ko, (ka, va))]) ∧ t'.size = (t.size + 1) % U32 ∧
      VM.CellOk h sm (.tab t') := by
  have hc := w.cells a _ ht
  have hh : ∀ e ∈ Dict.entries t, VM.Hashable e.1 := fun e he =>
    ⟨(hc.2 e he).1, (hc.2 e he).2.1, fun v hv => by have := w.cells _ _ (hc.2 e he).2.2.1; rw [hv] at this; exact this⟩
  have hck : Table.check sc t ko = .ok () := by
    obtain ⟨s, b, h1, h2, h3⟩ := VM.slot_bucket Table.hashN hc.1 ko
    unfold Table.check
    obtain ⟨n, hq⟩ := hash_ok hk
    rw [hq, Res.ok_bind, h1, Res.ok_bind, h2, Res.ok_bind, VM.scan_hashable sc hk]
    intro e he
    cases b with
    | none => simp at he
    | some es => exact hh e (VM.bucket_entries h3 e he)
  obtain ⟨r, h1, h2, h3, h4⟩ := dict_set_new Table.hashN (Table.keq sc) hc.1 ko (ka, va) hne
  refine ⟨r.1, by simp [Table.set, hck, h1], h3, h4, by rw [h2]; exact hc.1, fun e he => ?_⟩
  rcases List.mem_append.mp (h3.mem_iff.mp he) with he | he
  · exact hc.2 e he
  · simp only [List.mem_singleton] at he
    subst he
    exact ⟨hk.1, hk.2.1, hka, hva⟩

theorem WInv.write {h : Heap} {sm : SM} (w : WInv h sm) {a : Nat} {c0 c : Cell} (h0 : Holds h a c0) (hn : ∀ o, c0 ≠ .atom o) (k : VM.CellOk h sm c) :
    WInv (Heap.write h a c) sm := by
  have ha : ∀ x o, Holds h x (.atom o) → Holds (Heap.write h a c) x (.atom o) := by
    intro x o hx
    rw [holds_write h0]
    by_cases hxa : x = a
    · subst hxa; exact absurd (holds_inj h0 hx) (hn o)
    · exact .inr ⟨hxa, hx⟩
  have hl : ∀ x, VM.Live h x → VM.Live (Heap.write h a c) x := by
    rintro x ⟨c', hx⟩
    by_cases hxa : x = a
    · exact ⟨c, by rw [holds_write h0]; exact .inl ⟨hxa, rfl⟩⟩
    · exact ⟨c', by rw [holds_write h0]; exact .inr ⟨hxa, hx⟩⟩
  refine ⟨inv_write w.heap k.children, w.strings, fun x c' hx => ?_⟩
  rw [holds_write h0] at hx
  rcases hx with ⟨_, rfl⟩ | ⟨_, hx⟩
  · exact k.mono ha hl (fun _ _ h => h)
  · exact (w.cells x c' hx).mono ha hl (fun _ _ h => h)

mutual
/-- A value sent is read back as an object that stands for it; nothing else changes. -/
theorem hdeser_ser (sc : Bytes → Bytes → Int) : ∀ (v : Val), WireOk (realKeq sc) v → Bools v → ∀ bs, ser v = .ok bs → ∀ (d : Nat), depth v ≤ d →
    ∀ (pre post : Bytes) (h : Heap) (sm : SM), WInv h sm → sm.id2str.length + strs v ≤ 65534 →
      ∃ h' sm' a, hdeser sc (pre ++ bs ++ post) d pre.length h sm = .ok ⟨h', sm', some a, some (pre.length + bs.length)⟩ ∧ Landed h sm (strs v) v h' sm' a
  | .nil, _, _, bs, hb, d, hd, pre, post, h, sm, w, hr => by
    obtain ⟨d, rfl⟩ : ∃ d', d = d' + 1 := ⟨d - 1, by simp [depth] at hd; omega⟩
    cases hb
    refine ⟨_, _, _, ?_, landed_alloc (c := .atom .nil) w w.strings (fun _ _ h => h) (by omega) trivial (by intro t ht; cases ht)
      (.nil (le_refl _) (VM.holds_new w.heap _))⟩
    simp only [hdeser, deser8_ser 0 (by omega) pre post, Res.ok_bind, ser8_length]
  | .int i, hw, _, bs, hb, d, hd, pre, post, h, sm, w, hr => by
    obtain ⟨d, rfl⟩ : ∃ d', d = d' + 1 := ⟨d - 1, by simp [depth] at hd; omega⟩
    simp only [WireOk] at hw
    cases hb
    refine ⟨_, _, _, ?_, landed_alloc (c := .atom (.int i)) w w.strings (fun _ _ h => h) (by omega) hw (by intro t ht; cases ht)
      (.int (le_refl _) (VM.holds_new w.heap _))⟩
    have h1 := deser8_ser 1 (by omega) pre (ser32 .little (u32OfInt i) ++ post)
    have h2 := deser32_ser (u32OfInt i) (u32OfInt_lt i) (pre ++ ser8 1) post
    simp only [List.append_assoc, List.length_append, ser8_length] at h1 h2 ⊢
    simp only [hdeser, h1, h2, Res.ok_bind, intOfU32_u32OfInt i hw.1 hw.2, ser32_length, Nat.add_assoc]
  | .flt (.fin q), hw, _, bs, hb, d, hd, pre, post, h, sm, w, hr => by
    obtain ⟨d, rfl⟩ : ∃ d', d = d' + 1 := ⟨d - 1, by simp [depth] at hd; omega⟩
    simp only [WireOk] at hw
    refine ⟨_, _, _, ?_, landed_alloc (c := .atom (.flt (.fin q))) w w.strings (fun _ _ h => h) (by omega) trivial (by intro t ht; cases ht)
      (.flt (le_refl _) (VM.holds_new w.heap _))⟩
    obtain ⟨b, hb', hl, h2⟩ := deserFloat_ser hw (pre ++ ser8 2) post
    have : bs = ser8 2 ++ b := by simpa [ser, hb'] using hb.symm
    subst this
    have h1 := deser8_ser 2 (by omega) pre (b ++ post)
    simp only [List.append_assoc, List.length_append, ser8_length] at h1 h2 ⊢
    simp only [hdeser, h1, h2, Res.ok_bind, hl, Nat.add_assoc]
  | .flt (.inf n), hw, _, _, _, _, _, _, _, _, _, _, _ => by simp [WireOk] at hw
  | .flt .nan, hw, _, _, _, _, _, _, _, _, _, _, _ => by simp [WireOk] at hw
  | .str s, hw, _, bs, hb, d, hd, pre, post, h, sm, w, hr => by
    obtain ⟨d, rfl⟩ : ∃ d', d = d' + 1 := ⟨d - 1, by simp [depth] at hd; omega⟩
    simp only [WireOk] at hw
    simp only [strs] at hr
    cases hb
    obtain ⟨sm', id, r1, r2, r3, r4, _, r5⟩ := VM.register_inv w.strings (by omega) s false
    refine ⟨_, _, _, ?_, landed_alloc (c := .atom (.str id s)) w r2 r5 r3 r4 (by intro t ht; cases ht)
      (.str (le_refl _) (VM.holds_new w.heap _))⟩
    have h1 := deser8_ser 3 (by omega) pre (serString .little s ++ post)
    have h2 := deserString_ser s hw.1 (pre ++ ser8 3) post
    simp only [List.append_assoc, List.length_append, ser8_length] at h1 h2 ⊢
    simp only [hdeser, h1, h2, Res.ok_bind, cstr_eq hw.2, r1, Nat.add_assoc]
  | .clo native ref n, hw, hbl, bs, hb, d, hd, pre, post, h, sm, w, hr => by
    obtain ⟨d, rfl⟩ : ∃ d', d = d' + 1 := ⟨d - 1, by simp [depth] at hd; omega⟩
    simp only [WireOk] at hw
    simp only [Bools] at hbl
    obtain ⟨w1, w2, rfl⟩ := hw
    have : bs = ser8 5 ++ (ser8 native ++ ser32 .little ref) := by simpa [ser] using hb.symm
    subst this
    have wc : WInv (newobj h (.clo false 0 [])).1 sm := w.alloc (by refine ⟨by unfold VM.I32; omega, by intro b hb; cases hb⟩)
    have wn := wc.alloc (c := .atom .nil) trivial
    have hc0 : Holds (newobj (newobj h (.clo false 0 [])).1 (.atom .nil)).1 (newobj h (.clo false 0 [])).2 (.clo false 0 []) :=
      VM.holds_old wc.heap (VM.holds_new w.heap _)
    have hn0 : Holds (newobj (newobj h (.clo false 0 [])).1 (.atom .nil)).1 (newobj (newobj h (.clo false 0 [])).1 (.atom .nil)).2 (.atom .nil) :=
      VM.holds_new wc.heap _
    have hi : VM.I32 (intOfU32 ref) := VM.intOfU32_range ref w2
    have wf := wn.write (c := .clo (decide (native ≠ 0)) (intOfU32 ref) [(newobj (newobj h (.clo false 0 [])).1 (.atom .nil)).2]) hc0 (by intro o ho; cases ho)
      ⟨hi, by intro b hb; simp only [List.mem_singleton] at hb; rw [hb]; exact ⟨_, hn0⟩⟩
    refine ⟨_, _, (newobj h (.clo false 0 [])).2, ?_, ⟨wf, ⟨⟨?_, rfl, rfl, ?_⟩, fun _ _ h => h⟩, by omega, ?_, ?_⟩⟩
    · have h1 := deser8_ser 5 (by omega) pre (ser8 native ++ (ser32 .little ref ++ post))
      have h2 := deser8_ser native w1 (pre ++ ser8 5) (ser32 .little ref ++ post)
      have h3 := deser32_ser ref w2 (pre ++ (ser8 5 ++ ser8 native)) post
      simp only [List.append_assoc, List.length_append, ser8_length, Nat.add_assoc] at h1 h2 h3 ⊢
      simp only [hdeser, h1, h2, h3, Res.ok_bind, ser32_length, Nat.add_assoc]
    · show h.brk ≤ h.brk + 1 + 1; omega
    · intro a ha
      have e := ((ext_alloc w.heap h.marker (.clo false 0 [])).trans (ext_alloc wc.heap (newobj h (.clo false 0 [])).1.marker (.atom .nil))).old a ha
      rw [get_write, if_neg (by show a ≠ h.brk; omega)]
      exact e
    · have hh : Holds (Heap.write (newobj (newobj h (.clo false 0 [])).1 (.atom .nil)).1 (newobj h (.clo false 0 [])).2
          (.clo (decide (native ≠ 0)) (intOfU32 ref) [(newobj (newobj h (.clo false 0 [])).1 (.atom .nil)).2])) (newobj h (.clo false 0 [])).2
          (.clo (decide (native ≠ 0)) (intOfU32 ref) [(newobj (newobj h (.clo false 0 [])).1 (.atom .nil)).2]) := by
        rw [holds_write hc0]; exact .inl ⟨rfl, rfl⟩
      have := Repr.clo (lo := h.brk) (le_refl _) hh
      have e1 : (if decide (native ≠ 0) = true then 1 else 0) = native := by
        by_cases h0 : native = 0
        · simp [h0]
        · have : native = 1 := by omega
          simp [this]
      have e2 : u32OfInt (intOfU32 ref) = ref := by
        unfold u32OfInt intOfU32; split <;> omega
      rw [e1, e2] at this
      exact this
    · intro hs
      have s1 := sized_alloc w.heap (c := .clo false 0 []) (by intro t ht; cases ht) hs
      have s2 := sized_alloc wc.heap (c := .atom .nil) (by intro t ht; cases ht) s1
      intro a t hh
      rw [holds_write hc0] at hh
      rcases hh with ⟨_, hh⟩ | ⟨_, hh⟩
      · cases hh
      · exact s2 a t hh
  | .user p, hw, _, _, _, _, _, _, _, _, _, _, _ => by simp [WireOk] at hw
  | .table es, hw, hbl, bs, hb, d, hd, pre, post, h, sm, w, hr => by
    obtain ⟨d, rfl⟩ : ∃ d', d = d' + 1 := ⟨d - 1, by simp [depth] at hd; omega⟩
    simp only [WireOk] at hw
    simp only [Bools] at hbl
    obtain ⟨b, hb', _⟩ := loop_ser (realKeq sc) es hw.2.2
    have : bs = ser8 4 ++ (ser8 es.toList.length ++ b) := by simpa [ser, hb'] using hb.symm
    subst this
    have ok0 : VM.CellOk h sm (.tab Table.new) := ⟨by simp [Table.new, Dict.new], by
      intro e he; unfold Table.new at he; rw [Dict.entries_new] at he; cases he⟩
    have wt := w.alloc ok0
    have ht := VM.holds_new w.heap (.tab Table.new)
    have hz0 : (Dict.entries (Table.new : Table.Tbl (Nat × Nat))) = [] := by unfold Table.new; exact Dict.entries_new 10
    obtain ⟨h', sm', g1, g2, g3, g4, g5, g6⟩ := hloop_ser sc es hw.2.2 hbl b hb' d (by simp only [depth] at hd; omega) (pre ++ (ser8 4 ++ ser8 es.toList.length)) post
      h h.brk (newobj h (.tab Table.new)).1 sm Table.new [] [] wt (ext_alloc w.heap _ _) (le_refl _) ht (by rw [hz0]) (by exact .nil)
      (by simpa using hw.2.1) (by intro x hx; cases hx) (by simpa [strs] using hr)
    refine ⟨h', sm', h.brk, ?_, g2, ⟨g3.ext, g3.strs⟩, g4, ?_, fun hs => g6 (sized_alloc w.heap (by
      intro t ht; cases ht; rw [hz0]; rfl) hs)⟩
    · have h1 := deser8_ser 4 (by omega) pre (ser8 es.toList.length ++ (b ++ post))
      have h2 := deser8_ser es.toList.length (by omega) (pre ++ ser8 4) (b ++ post)
      simp only [List.append_assoc, List.length_append, ser8_length] at h1 h2 g1 ⊢
      simp only [Nat.add_assoc] at g1 ⊢
      simp only [hdeser, h1, h2, Res.ok_bind, Nat.add_assoc, VM.newobj_snd, g1]
    · simpa [Ents.ofList_toList] using g5
/-- The same for the entries of a table. -/
theorem hloop_ser (sc : Bytes → Bytes → Int) : ∀ (es : Ents), EntsOk (realKeq sc) es → BoolsE es → ∀ bs, serEnts es = .ok bs → ∀ (d : Nat), depthE es ≤ d →
    ∀ (pre post : Bytes) (h0 : Heap) (a : Nat) (h : Heap) (sm : SM) (t : Table.Tbl (Nat × Nat)) (l : List (Obj × (Nat × Nat))) (acc : List (Val × Val)),
      WInv h sm → Ext h0 h → h0.brk ≤ a → Holds h a (.tab t) → l.Perm (Dict.entries t) → ReprE h (a + 1) l (Ents.ofList acc) →
      (acc ++ es.toList).Pairwise (fun a b => realKeq sc b.1 a.1 = false) → (∀ x ∈ acc, KeyOk x.1) → sm.id2str.length + strsE es ≤ 65534 →
      ∃ h' sm', hloop sc (hdeser sc (pre ++ bs ++ post) d) a es.toList.length pre.length h sm = .ok ⟨h', sm', some a, some (pre.length + bs.length)⟩ ∧
        WInv h' sm' ∧ Grow h0 sm h' sm' ∧ sm'.id2str.length ≤ sm.id2str.length + strsE es ∧
        Repr h' a a (.table (Ents.ofList (acc ++ es.toList))) ∧ (Sized h → Sized h')
  | .nil, _, _, bs, hb, d, hd, pre, post, h0, a, h, sm, t, l, acc, w, e, ha, ht, hl, hr, hp, hk, hz => by
    cases hb
    refine ⟨h, sm, by simp [Ents.toList, hloop], w, ⟨e, fun _ _ h => h⟩, by omega, ?_, id⟩
    simp only [Ents.toList, List.append_nil]
    exact .table (le_refl _) ht hl (hr.mono (by omega) (fun _ _ _ h => h))
  | .cons k v r, hw, hbl, bs, hb, d, hd, pre, post, h0, a, h, sm, t, l, acc, w, e, ha, ht, hl, hr, hp, hk, hz => by
    simp only [EntsOk] at hw
    simp only [BoolsE] at hbl
    simp only [depthE] at hd
    simp only [strsE] at hz ⊢
    obtain ⟨bk, hbk, _⟩ := deser_ser (realKeq sc) k hw.1
    obtain ⟨bv, hbv, _⟩ := deser_ser (realKeq sc) v hw.2.2.1
    obtain ⟨br, hbr, _⟩ := loop_ser (realKeq sc) r hw.2.2.2
    have : bs = bk ++ (bv ++ br) := by simpa [serEnts, hbk, hbv, hbr] using hb.symm
    subst this
    obtain ⟨h1, sm1, ka, q1, L1⟩ := hdeser_ser sc k hw.1 hbl.1 bk hbk d (by omega) pre (bv ++ (br ++ post)) h sm w (by omega)
    obtain ⟨h2, sm2, va, q2, L2⟩ := hdeser_ser sc v hw.2.2.1 hbl.2.1 bv hbv d (by omega) (pre ++ bk) (br ++ post) h1 sm1 L1.inv (by have := L1.count; omega)
    have hlt := holds_lt w.heap ht
    have ht2 : Holds h2 a (.tab t) := Ext.holds L1.inv.heap L2.grow.ext (Ext.holds w.heap L1.grow.ext ht)
    obtain ⟨ko, k1, k2, k3⟩ := repr_key L1.inv L1.repr hw.2.1
    have k1' := Ext.holds L1.inv.heap L2.grow.ext k1
    have Ra : ReprE h2 (a + 1) l (Ents.ofList acc) :=
      hr.mono (le_refl _) (fun x c _ hx => Ext.holds L1.inv.heap L2.grow.ext (Ext.holds w.heap L1.grow.ext hx))
    have Rk : Repr h2 (a + 1) ka k := L1.repr.mono (by omega) (fun x c _ hx => Ext.holds L1.inv.heap L2.grow.ext hx)
    have Rv : Repr h2 (a + 1) va v := L2.repr.mono (by have := L1.grow.ext.brk; omega) (fun x c _ hx => hx)
    have hnew : ∀ e ∈ Dict.entries t, Table.keq sc ko e.1 = false := by
      intro x hx
      obtain ⟨g1, y, g2, g3⟩ := Ra.mem x (hl.mem_iff.mpr hx)
      obtain ⟨ko', m1, m2, m3⟩ := repr_key L2.inv g3 (hk y g2)
      have e1 := holds_inj g1 m1
      cases e1
      have : realKeq sc k y.1 = false := by
        rw [List.pairwise_append] at hp
        exact hp.2.2 y g2 (k, v) (by simp [Ents.toList])
      unfold Table.keq
      rw [cmp_same k2 m2 hw.2.1 (hk y g2)]
      exact this
    have hva : VM.Live h2 va := by
      rcases L2.repr with _ | _ | _ | _ | _ | _ | _ <;> exact ⟨_, by assumption⟩
    obtain ⟨t', s1, s2, s3, s4⟩ := table_set_new L2.inv ht2 k3 k1' hva hnew
    have w3 := L2.inv.write ht2 (by intro o ho; cases ho) s4
    have ht3 : Holds (Heap.write h2 a (.tab t')) a (.tab t') := (holds_write ht2).mpr (.inl ⟨rfl, rfl⟩)
    have ext2 : Ext h0 h2 := (e.trans L1.grow.ext).trans L2.grow.ext
    have ext3 : Ext h0 (Heap.write h2 a (.tab t')) := ⟨ext2.brk, ext2.marker, ext2.maxObjs, fun x hx => by
      rw [get_write, if_neg (by omega)]; exact ext2.old x hx⟩
    have Rl : ReprE (Heap.write h2 a (.tab t')) (a + 1) (l ++ [(ko, (ka, va))]) (Ents.ofList (acc ++ [(k, v)])) :=
      (Ra.snoc k1' Rk Rv).mono (le_refl _) (fun x c hx hh => (holds_write ht2).mpr (.inr ⟨by omega, hh⟩))
    obtain ⟨h', sm', g1, g2, g3, g4, g5, g6⟩ := hloop_ser sc r hw.2.2.2 hbl.2.2 br hbr d (by omega) (pre ++ (bk ++ bv)) post h0 a (Heap.write h2 a (.tab t')) sm2 t'
      (l ++ [(ko, (ka, va))]) (acc ++ [(k, v)]) w3 ext3 ha ht3 ((hl.append_right _).trans s2.symm) Rl (by simpa [Ents.toList] using hp)
      (by
        intro x hx
        rcases List.mem_append.mp hx with hx | hx
        · exact hk x hx
        · simp only [List.mem_singleton] at hx; rw [hx]; exact hw.2.1)
      (by have := L1.count; have := L2.count; omega)
    refine ⟨h', sm', ?_, g2, ⟨g3.ext, fun j x hj => g3.strs j x (L2.grow.strs j x (L1.grow.strs j x hj))⟩, by have := L1.count; have := L2.count; omega, ?_, ?_⟩
    · obtain ⟨m, m1, m2⟩ := holds_deref ht2
      obtain ⟨km, n1, n2⟩ := holds_deref k1'
      simp only [List.append_assoc, List.length_append, Nat.add_assoc] at q1 q2 g1 ⊢
      simp only [Ents.toList, List.length_cons, hloop, q1, q2, Res.ok_bind, m1, m2, n1, n2, objOf, s1, g1]
    · simpa [Ents.toList] using g5
    · intro hs
      apply g6
      have s2' := L2.sized (L1.sized hs)
      intro x tx hx
      rcases (holds_write ht2).mp hx with ⟨_, hx⟩ | ⟨_, hx⟩
      · cases hx
        rw [s3, s2.length_eq, s2' a t ht2]
        simp [U32]
      · exact s2' x tx hx
end

/-! ### Arbitrary bytes -/

/-- What reading arbitrary bytes at `pos` may leave. -/
structure After (buf : Bytes) (pos : Nat) (h : Heap) (sm : SM) (g : Got) : Prop where
  inv : WInv g.h g.sm
  grow : Grow h sm g.h g.sm
  data : ∀ a, g.data = some a → VM.Live g.h a ∧ h.brk ≤ a
  next : ∀ p, g.pos = some p → pos < p ∧ p ≤ buf.length ∧ g.data.isSome ∧ g.sm.id2str.length ≤ sm.id2str.length + (p - pos)
  count : g.sm.id2str.length ≤ sm.id2str.length + (buf.length - pos)

/-- The fate of a read: it ends, or runs into a defect with a cause in the buffer. -/
def Fate (buf : Bytes) (pos : Nat) (h : Heap) (sm : SM) : Res Got → Prop
  | .ok g => After buf pos h sm g
  | .ub => ∃ e, Value.Bad buf pos e
  | .abort => ∃ i, pos ≤ i ∧ buf[i]? = some 4
  | .hang => False

theorem after_alloc {buf : Bytes} {pos : Nat} {h : Heap} {sm sm' : SM} {c : Cell} {q : Option Nat} (w : WInv h sm) (i : Strman.Inv sm')
    (g : ∀ j x, Strman.get sm j = some x → Strman.get sm' j = some x) (hn : sm'.id2str.length ≤ sm.id2str.length + (buf.length - pos))
    (k : VM.CellOk h sm' c) (hq : ∀ p, q = some p → pos < p ∧ p ≤ buf.length ∧ sm'.id2str.length ≤ sm.id2str.length + (p - pos)) :
    After buf pos h sm ⟨(newobj h c).1, sm', some (newobj h c).2, q⟩ where
  inv := (w.strings_grow i g).alloc k
  grow := ⟨ext_alloc w.heap _ _, g⟩
  data a ha := by cases ha; exact ⟨⟨_, VM.holds_new w.heap c⟩, le_refl _⟩
  next p hp := ⟨(hq p hp).1, (hq p hp).2.1, rfl, (hq p hp).2.2⟩
  count := hn

theorem bad_table {buf : Bytes} {i pos : Nat} (h : pos ≤ i) (hb : buf[i]? = some 4) : ∃ e, Value.Bad buf pos e := ⟨.keyCast, i, h, hb⟩

theorem after_clo {buf : Bytes} {pos : Nat} {h : Heap} {sm : SM} {n : Bool} {r : Int} {q : Option Nat} (w : WInv h sm) (hr : VM.I32 r)
    (hq : ∀ p, q = some p → pos < p ∧ p ≤ buf.length) :
    After buf pos h sm ⟨Heap.write (newobj (newobj h (.clo false 0 [])).1 (.atom .nil)).1 (newobj h (.clo false 0 [])).2
      (.clo n r [(newobj (newobj h (.clo false 0 [])).1 (.atom .nil)).2]), sm, some (newobj h (.clo false 0 [])).2, q⟩ := by
  have wc : WInv (newobj h (.clo false 0 [])).1 sm := w.alloc (by refine ⟨by unfold VM.I32; omega, by intro b hb; cases hb⟩)
  have wn := wc.alloc (c := .atom .nil) trivial
  have hc0 : Holds (newobj (newobj h (.clo false 0 [])).1 (.atom .nil)).1 (newobj h (.clo false 0 [])).2 (.clo false 0 []) :=
    VM.holds_old wc.heap (VM.holds_new w.heap _)
  have hn0 : Holds (newobj (newobj h (.clo false 0 [])).1 (.atom .nil)).1 (newobj (newobj h (.clo false 0 [])).1 (.atom .nil)).2 (.atom .nil) :=
    VM.holds_new wc.heap _
  refine ⟨wn.write hc0 (by intro o ho; cases ho) ⟨hr, by intro b hb; simp only [List.mem_singleton] at hb; rw [hb]; exact ⟨_, hn0⟩⟩,
    ⟨⟨?_, rfl, rfl, ?_⟩, fun _ _ h => h⟩, ?_, fun p hp => ⟨(hq p hp).1, (hq p hp).2, rfl, Nat.le_add_right _ _⟩, Nat.le_add_right _ _⟩
  · show h.brk ≤ h.brk + 1 + 1; omega
  · intro a ha
    have e := ((ext_alloc w.heap h.marker (.clo false 0 [])).trans (ext_alloc wc.heap (newobj h (.clo false 0 [])).1.marker (.atom .nil))).old a ha
    rw [get_write, if_neg (by show a ≠ h.brk; omega)]
    exact e
  · intro a ha
    cases ha
    exact ⟨⟨_, (holds_write hc0).mpr (.inl ⟨rfl, rfl⟩)⟩, le_refl _⟩

/-- Storing an arbitrary key. -/
theorem table_set_any {sc : Bytes → Bytes → Int} {h : Heap} {sm : SM} (w : WInv h sm) {a : Nat} {t : Table.Tbl (Nat × Nat)} (ht : Holds h a (.tab t))
    {kc : Cell} {ka va : Nat} (hka : Holds h ka kc) (hva : VM.Live h va) :
    (∃ t', Table.set sc t (objOf ka kc) (ka, va) = .ok t' ∧ VM.CellOk h sm (.tab t')) ∨ Table.set sc t (objOf ka kc) (ka, va) = .ub ∨
      Table.set sc t (objOf ka kc) (ka, va) = .abort := by
  have hc := w.cells a _ ht
  have hh : ∀ e ∈ Dict.entries t, VM.Hashable e.1 := fun e he =>
    ⟨(hc.2 e he).1, (hc.2 e he).2.1, fun v hv => by have := w.cells _ _ (hc.2 e he).2.2.1; rw [hv] at this; exact this⟩
  by_cases hk : VM.isKey (objOf ka kc) = true
  · have ho := VM.check_out (C := fun b => b = .ub) sc hc.1 hh hk (fun v hv => by
      have := w.cells _ _ hka
      cases kc with
      | atom o => simp only [objOf] at hv; rw [hv] at this; exact this
      | tab t => simp [objOf] at hv
      | clo => simp [objOf] at hv) (fun _ _ _ => rfl)
    cases hq : Table.check sc t (objOf ka kc) with
    | ok u =>
      rw [hq] at ho
      obtain ⟨r, h1, h2, h3⟩ := VM.dict_set_mem Table.hashN (Table.keq sc) hc.1 (objOf ka kc) (ka, va)
      left
      refine ⟨r.1, by simp [Table.set, hq, h1], by rw [h2]; exact hc.1, fun e he => ?_⟩
      rcases h3 e he with he | he
      · exact hc.2 e he
      · subst he
        refine ⟨hk, ho.2.1, ?_, hva⟩
        have := VM.key_atom hk
        rw [← this]; exact hka
    | ub => right; left; simp [Table.set, hq]
    | abort => rw [hq] at ho; cases ho
    | hang => rw [hq] at ho; cases ho
  · right; right
    have : Obj.tableHash (objOf ka kc) = .abort := by
      cases ho : objOf ka kc <;> simp_all [VM.isKey, Obj.tableHash]
    simp [Table.set, Table.check, this]

theorem hloop_fate (sc : Bytes → Bytes → Int) (buf : Bytes) (d : Nat)
    (ih : ∀ (pos : Nat) (h : Heap) (sm : SM), WInv h sm → sm.id2str.length + (buf.length - pos) ≤ 65534 → pos ≤ buf.length → buf.length < pos + d →
      Fate buf pos h sm (hdeser sc buf d pos h sm)) :
    ∀ (n p0 p : Nat) (h0 h : Heap) (sm0 sm : SM) (a : Nat), WInv h sm → Grow h0 sm0 h sm → h0.brk ≤ a → (∃ t, Holds h a (.tab t)) →
      sm.id2str.length ≤ sm0.id2str.length + (p - p0) →
      buf[p0]? = some 4 → p0 < p → p ≤ buf.length → buf.length < p + d → sm.id2str.length + (buf.length - p) ≤ 65534 →
      Fate buf p0 h0 sm0 (hloop sc (hdeser sc buf d) a n p h sm) := by
  intro n
  induction n with
  | zero =>
    intro p0 p h0 h sm0 sm a w g ha ⟨t, ht⟩ hc h4 h1 h2 h3 hz
    exact ⟨w, g, fun x hx => by cases hx; exact ⟨⟨_, ht⟩, ha⟩, fun q hq => by cases hq; exact ⟨h1, h2, rfl, hc⟩, by show sm.id2str.length ≤ _; omega⟩
  | succ n ihn =>
    intro p0 p h0 h sm0 sm a w g ha ⟨t, ht⟩ hc h4 h1 h2 h3 hz
    have f1 := ih p h sm w hz h2 h3
    simp only [hloop]
    cases hk : hdeser sc buf d p h sm with
    | ub => rw [hk] at f1; obtain ⟨e, f1⟩ := f1; exact ⟨e, f1.mono (by omega)⟩
    | abort => exact ⟨p0, le_refl _, h4⟩
    | hang => rw [hk] at f1; exact f1.elim
    | ok k =>
      rw [hk] at f1
      have A1 : After buf p h sm k := f1
      rw [Res.ok_bind]
      have htk : Holds k.h a (.tab t) := Ext.holds w.heap A1.grow.ext ht
      have fail : ∀ {g' : Got}, After buf p h sm k → WInv g'.h g'.sm → Grow k.h k.sm g'.h g'.sm → g'.data = some a → g'.pos = none →
          g'.sm.id2str.length ≤ sm0.id2str.length + (buf.length - p0) → Fate buf p0 h0 sm0 (.ok g') := by
        intro g' A w' gr' d' q' c'
        exact ⟨w', (g.trans A.grow).trans gr', fun x hx => by
          rw [d'] at hx; cases hx
          exact ⟨⟨_, Ext.holds A1.inv.heap gr'.ext htk⟩, ha⟩, (fun q hq => by rw [q'] at hq; cases hq), c'⟩
      cases hp1 : k.pos with
      | none =>
        exact fail (g' := ⟨k.h, k.sm, some a, none⟩) A1 A1.inv (Grow.refl _ _) rfl rfl (by have := A1.count; show k.sm.id2str.length ≤ _; omega)
      | some p1 =>
        obtain ⟨b1, b2, b3, b4⟩ := A1.next p1 hp1
        cases hd1 : k.data with
        | none => rw [hd1] at b3; cases b3
        | some ka =>
          simp only
          have f2 := ih p1 k.h k.sm A1.inv (by omega) b2 (by omega)
          cases hv : hdeser sc buf d p1 k.h k.sm with
          | ub => rw [hv] at f2; obtain ⟨e, f2⟩ := f2; exact ⟨e, f2.mono (by omega)⟩
          | abort => exact ⟨p0, le_refl _, h4⟩
          | hang => rw [hv] at f2; exact f2.elim
          | ok v =>
            rw [hv] at f2
            have A2 : After buf p1 k.h k.sm v := f2
            rw [Res.ok_bind]
            cases hp2 : v.pos with
            | none =>
              exact fail (g' := ⟨v.h, v.sm, some a, none⟩) A1 A2.inv A2.grow rfl rfl (by have := A2.count; show v.sm.id2str.length ≤ _; omega)
            | some p2 =>
              obtain ⟨c1, c2, c3, c4⟩ := A2.next p2 hp2
              cases hd2 : v.data with
              | none => rw [hd2] at c3; cases c3
              | some va =>
                simp only
                have htv : Holds v.h a (.tab t) := Ext.holds A1.inv.heap A2.grow.ext htk
                obtain ⟨⟨kc, hkc⟩, _⟩ := A1.data ka hd1
                have hkv := Ext.holds A1.inv.heap A2.grow.ext hkc
                obtain ⟨hva, _⟩ := A2.data va hd2
                obtain ⟨m, m1, m2⟩ := holds_deref htv
                obtain ⟨km, n1, n2⟩ := holds_deref hkv
                rw [m1, Res.ok_bind, n1, Res.ok_bind, m2, n2]
                simp only
                rcases table_set_any (sc := sc) A2.inv htv hkv hva with ⟨t', s1, s2⟩ | s1 | s1
                · rw [s1, Res.ok_bind]
                  have w3 := A2.inv.write htv (by intro o ho; cases ho) s2
                  have g2 := (g.trans A1.grow).trans A2.grow
                  refine ihn p0 p2 h0 _ sm0 v.sm a w3 ⟨⟨g2.ext.brk, g2.ext.marker, g2.ext.maxObjs, fun x hx => ?_⟩, g2.strs⟩ ha
                    ⟨t', (holds_write htv).mpr (.inl ⟨rfl, rfl⟩)⟩ (by omega) h4 (by omega) c2 (by omega) (by omega)
                  rw [get_write, if_neg (by omega)]; exact g2.ext.old x hx
                · rw [s1]; exact bad_table (le_refl _) h4
                · rw [s1]; exact ⟨p0, le_refl _, h4⟩

/-- Reading arbitrary bytes keeps the memory invariant, or runs into one of the known defects. -/
theorem hdeser_fate (sc : Bytes → Bytes → Int) (buf : Bytes) : ∀ (d pos : Nat) (h : Heap) (sm : SM), WInv h sm → sm.id2str.length + (buf.length - pos) ≤ 65534 →
    0 < d → buf.length < pos + d → Fate buf pos h sm (hdeser sc buf d pos h sm) := by
  intro d
  induction d with
  | zero => intro pos h sm w hz h0; omega
  | succ d ih =>
    intro pos h sm w hz _ hd
    simp only [hdeser]
    rcases deser8_total buf pos with ⟨_, e⟩ | ⟨g1, t, ht, e⟩ <;> rw [e, Res.ok_bind]
    · exact ⟨w, Grow.refl _ _, (fun a ha => by cases ha), (fun p hp => by cases hp), by show sm.id2str.length ≤ _; omega⟩
    · obtain ⟨hbyte, _, _, _⟩ := deser8_byte e
      simp only
      have dflt : ∀ {c : Cell}, VM.CellOk h sm c → Fate buf pos h sm (.ok ⟨(newobj h c).1, sm, some (newobj h c).2, none⟩) := fun k =>
        after_alloc w w.strings (fun _ _ h => h) (by omega) k (fun p hp => by cases hp)
      have good : ∀ {c : Cell} {p : Nat}, VM.CellOk h sm c → pos < p → p ≤ buf.length → Fate buf pos h sm (.ok ⟨(newobj h c).1, sm, some (newobj h c).2, some p⟩) :=
        fun k h1 h2 => after_alloc w w.strings (fun _ _ h => h) (by omega) k (fun p hp => by cases hp; exact ⟨h1, h2, by omega⟩)
      split
      · exact good trivial (by omega) g1
      · rcases deser32_total .little buf (pos + 1) with ⟨_, e⟩ | ⟨g2, v, hv, e⟩ <;> rw [e, Res.ok_bind]
        · exact dflt (by unfold VM.CellOk VM.I32; omega)
        · exact good (VM.intOfU32_range v hv) (by omega) g2
      · rcases deserFloat_total buf (pos + 1) with e | ⟨g2, v, e⟩ | ⟨_, e1, e⟩ <;> rw [e]
        · exact dflt trivial
        · exact good trivial (by omega) g2
        · exact ⟨.absMin, pos, le_refl _, hbyte, e1⟩
      · rcases deserString_total .little buf (pos + 1) with e | ⟨v, v1, g2, e⟩ <;> rw [e, Res.ok_bind]
        · exact ⟨w, Grow.refl _ _, (fun a ha => by cases ha), (fun p hp => by cases hp), by show sm.id2str.length ≤ _; omega⟩
        · obtain ⟨sm', id, r1, r2, r3, r4, _, r5⟩ := VM.register_inv w.strings (by omega) (cstr v) false
          simp only [r1, Res.ok_bind]
          exact after_alloc w r2 r5 (by omega) r4 (fun p hp => by cases hp; exact ⟨by omega, g2, by omega⟩)
      · rcases deser8_total buf (pos + 1) with ⟨_, e⟩ | ⟨g2, n, _, e⟩ <;> rw [e, Res.ok_bind]
        · exact dflt (by refine ⟨by simp [Table.new, Dict.new], fun e he => ?_⟩; unfold Table.new at he; rw [Dict.entries_new] at he; cases he)
        · have wt : WInv (newobj h (.tab Table.new)).1 sm := w.alloc (by
            refine ⟨by simp [Table.new, Dict.new], fun e he => ?_⟩; unfold Table.new at he; rw [Dict.entries_new] at he; cases he)
          exact hloop_fate sc buf d (fun pos h sm w hz h1 h2 => ih pos h sm w hz (by omega) h2) n pos (pos + 1 + 1) h _ sm sm h.brk wt (grow_alloc w _) (le_refl _)
            ⟨_, VM.holds_new w.heap _⟩ (by omega) hbyte (by omega) g2 (by omega) (by omega)
      · rcases deser8_total buf (pos + 1) with ⟨_, e⟩ | ⟨g2, n, _, e⟩ <;> rw [e, Res.ok_bind]
        · exact after_clo w (by unfold VM.I32; omega) (fun p hp => by cases hp)
        · rcases deser32_total .little buf (pos + 1 + 1) with ⟨_, e⟩ | ⟨g2, v, hv, e⟩ <;> simp only [e, Res.ok_bind]
          · exact after_clo w (by unfold VM.I32; omega) (fun p hp => by cases hp)
          · exact after_clo w (VM.intOfU32_range v hv) (fun p hp => by cases hp; exact ⟨by omega, g2⟩)
      · exact dflt trivial
      · rename_i h0 h1 h2 h3 h4 h5 h6
        have := (⟨h0, h1, h2, h3, h4, h5, h6⟩ : t ≠ 0 ∧ t ≠ 1 ∧ t ≠ 2 ∧ t ≠ 3 ∧ t ≠ 4 ∧ t ≠ 5 ∧ t ≠ 6)
        refine ⟨.badType, pos, _, Nat.le_refl _, hbyte, ?_⟩
        rw [byte_toNat _ ht]
        omega

end Buzz.HeapWire
