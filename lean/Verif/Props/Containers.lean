import Verif.DarrayLemmas
import Verif.Sort
import Verif.DictLemmas

/-!
Property theorems C01 (dynamic array), C02 (sorting), C03 and C04 (dictionary).
The specifications are plain list functions that do not mention the model.
-/
namespace Buzz.Props

/-! ## C01: the dynamic array is a list -/

/-- Operations a client performs on an array. -/
inductive ArrOp (α : Type) where
  | push (v : α)
  | insert (pos : Nat) (v : α)
  | set (pos : Nat) (v : α)
  | remove (pos : Nat)
  | pop
  | clear (cap : Nat)

/-- Specification: effect on a list, and the elements handed to the element destructor. -/
def ArrOp.spec {α : Type} (xs : List α) : ArrOp α → List α × List α
  | .push v => (xs ++ [v], [])
  | .insert pos v => (xs.take pos ++ v :: xs.drop pos, [])
  | .set pos v => (xs.set pos v, [])
  | .remove pos => (xs.take pos ++ xs.drop (pos + 1), (xs[pos]?).toList)
  | .pop => (xs.dropLast, (xs.getLast?).toList)
  | .clear _ => ([], xs)

/-- What the client must respect: insert not beyond the end, set inside, a non-zero capacity for
`clear`, and the 32-bit limit on the buffer size (at most `2 * (n+1)` slots are ever needed for `n+1` elements). -/
def ArrOp.valid {α : Type} (elem : Nat) (xs : List α) : ArrOp α → Prop
  | .push _ => 2 * (xs.length + 1) * elem < U32
  | .insert pos _ => pos ≤ xs.length ∧ 2 * (xs.length + 1) * elem < U32
  | .set pos _ => pos < xs.length
  | .remove _ => True
  | .pop => True
  | .clear cap => 1 ≤ cap ∧ cap * elem < U32

/-- The model operation. -/
def ArrOp.run {α : Type} (d : Darray.DA α) : ArrOp α → Res (Darray.DA α × List α)
  | .push v => do let d ← Darray.push d v; pure (d, [])
  | .insert pos v => do let d ← Darray.insert d pos v; pure (d, [])
  | .set pos v => do let d ← Darray.set d pos v; pure (d, [])
  | .remove pos => Darray.remove d pos
  | .pop => Darray.pop d
  | .clear cap => Darray.clear d cap

/-- All operations in a sequence are valid when executed on lists. -/
def ArrOp.validSeq {α : Type} (elem : Nat) : List α → List (ArrOp α) → Prop
  | _, [] => True
  | xs, op :: ops => op.valid elem xs ∧ validSeq elem (op.spec xs).1 ops

/-- The list after a sequence of operations, and everything destroyed, in order. -/
def ArrOp.specSeq {α : Type} : List α → List (ArrOp α) → List α × List α
  | xs, [] => (xs, [])
  | xs, op :: ops =>
    let r := specSeq (op.spec xs).1 ops
    (r.1, (op.spec xs).2 ++ r.2)

/-- The model run over a sequence of operations. -/
def ArrOp.runSeq {α : Type} : Darray.DA α → List (ArrOp α) → Res (Darray.DA α × List α)
  | d, [] => .ok (d, [])
  | d, op :: ops => do
    let (d1, l1) ← op.run d
    let (d2, l2) ← runSeq d1 ops
    pure (d2, l1 ++ l2)

theorem arr_run_rep {α : Type} {d : Darray.DA α} {xs : List α} (h : Darray.Rep d xs) (op : ArrOp α)
    (hv : op.valid d.elem xs) :
    ∃ d', op.run d = .ok (d', (op.spec xs).2) ∧ Darray.Rep d' (op.spec xs).1 ∧ d'.elem = d.elem := by
  cases op with
  | push v =>
    obtain ⟨d', h1, h2, h3⟩ := Darray.push_rep h v hv
    exact ⟨d', by simp [ArrOp.run, h1, ArrOp.spec], h2, h3⟩
  | insert pos v =>
    obtain ⟨d', h1, h2, h3⟩ := Darray.insert_rep h hv.1 v hv.2
    exact ⟨d', by simp [ArrOp.run, h1, ArrOp.spec], h2, h3⟩
  | set pos v =>
    obtain ⟨d', h1, h2, h3⟩ := Darray.set_rep h hv v
    exact ⟨d', by simp [ArrOp.run, h1, ArrOp.spec], h2, h3⟩
  | remove pos =>
    by_cases hp : pos < xs.length
    · obtain ⟨d', h1, h2, h3⟩ := Darray.remove_rep h hp
      exact ⟨d', by simp [ArrOp.run, h1, ArrOp.spec, hp], h2, h3⟩
    · refine ⟨d, ?_, ?_, rfl⟩
      · simp only [ArrOp.run, ArrOp.spec, Darray.remove_ge h (by omega : xs.length ≤ pos)]
        simp [List.getElem?_eq_none (by omega : xs.length ≤ pos)]
      · simp only [ArrOp.spec]
        rw [List.take_of_length_le (by omega), List.drop_of_length_le (by omega), List.append_nil]
        exact h
  | pop =>
    by_cases hne : xs = []
    · subst hne
      exact ⟨d, by simp [ArrOp.run, Darray.pop_rep_nil h, ArrOp.spec], h, rfl⟩
    · obtain ⟨d', h1, h2, h3⟩ := Darray.pop_rep h hne
      refine ⟨d', ?_, h2, h3⟩
      simp [ArrOp.run, h1, ArrOp.spec, List.getLast?_eq_some_getLast hne]
  | clear cap =>
    obtain ⟨d', h1, h2, h3⟩ := Darray.clear_rep h hv.1 hv.2
    exact ⟨d', by simp [ArrOp.run, h1, ArrOp.spec], h2, h3⟩

theorem arr_runSeq_rep {α : Type} : ∀ (ops : List (ArrOp α)) {d : Darray.DA α} {xs : List α},
    Darray.Rep d xs → ArrOp.validSeq d.elem xs ops →
    ∃ d', ArrOp.runSeq d ops = .ok (d', (ArrOp.specSeq xs ops).2) ∧ Darray.Rep d' (ArrOp.specSeq xs ops).1
  | [], d, xs, h, _ => ⟨d, rfl, h⟩
  | op :: ops, d, xs, h, hv => by
    obtain ⟨d1, h1, h2, h3⟩ := arr_run_rep h op hv.1
    obtain ⟨d2, h4, h5⟩ := arr_runSeq_rep ops h2 (by rw [h3]; exact hv.2)
    exact ⟨d2, by simp [ArrOp.runSeq, ArrOp.specSeq, h1, h4], h5⟩

/-- **C01.** From a fresh array, any valid sequence of operations runs without undefined behaviour,
abort or divergence; afterwards the size, every in-range read, the iteration order and the search
result are those of the list obtained by the same operations, and the destructor has been called on
exactly the removed elements in order. -/
theorem C01_array_refines_list {α : Type} (cap elem : Nat) (hc : 1 ≤ cap) (he : 0 < elem)
    (hb : cap * elem < U32) (ops : List (ArrOp α)) (hv : ArrOp.validSeq elem [] ops) :
    ∃ d0 d, Darray.new cap elem = .ok d0 ∧
      ArrOp.runSeq d0 ops = .ok (d, (ArrOp.specSeq [] ops).2) ∧
      d.size = (ArrOp.specSeq [] ops).1.length ∧
      (∀ i (h : i < (ArrOp.specSeq [] ops).1.length), Darray.get d i = .ok ((ArrOp.specSeq [] ops).1[i])) ∧
      Darray.toList d = .ok (ArrOp.specSeq [] ops).1 ∧
      (∀ eq : α → Bool, Darray.find d eq = .ok ((ArrOp.specSeq [] ops).1.findIdx eq)) := by
  obtain ⟨d0, h1, h2, h3⟩ := Darray.new_rep (α := α) hc he hb
  obtain ⟨d, h4, h5⟩ := arr_runSeq_rep ops h2 (by rw [h3]; exact hv)
  exact ⟨d0, d, h1, h4, h5.size_eq, fun i h => Darray.get_rep h5 h, Darray.toList_rep h5,
    fun eq => Darray.find_rep h5 eq⟩

/-- A sequence meeting the hypotheses of C01, with growth, shrinking, an insertion in the middle and a
removal. -/
example : ArrOp.validSeq 8 ([] : List Nat)
    [.push 1, .push 2, .insert 1 7, .push 3, .set 0 9, .remove 1, .pop, .remove 5, .clear 2, .push 4] := by
  simp [ArrOp.validSeq, ArrOp.valid, ArrOp.spec, U32]

example : (ArrOp.specSeq ([] : List Nat)
    [.push 1, .push 2, .insert 1 7, .push 3, .set 0 9, .remove 1]).1 = [9, 2, 3] := by
  decide

/-- **C01 (copy).** Cloning an array that holds `xs` gives an array that holds `xs`. -/
theorem C01_array_clone {α : Type} {d : Darray.DA α} {xs : List α} (h : Darray.Rep d xs) :
    ∃ d', Darray.clone d = .ok d' ∧ Darray.toList d' = .ok xs := by
  obtain ⟨d', h1, h2, _⟩ := Darray.clone_rep h
  exact ⟨d', h1, Darray.toList_rep h2⟩

/-- **C01 (from a buffer).** An array made from a buffer that holds the elements `xs`, at least one, behaves as the list `xs` under every
sequence of operations. -/
theorem C01_from_buffer {α : Type} (xs : List α) (elem : Nat) (hx : xs ≠ []) (he : 0 < elem) (hb : xs.length * elem < U32)
    (ops : List (ArrOp α)) (hv : ArrOp.validSeq elem xs ops) :
    ∃ d, ArrOp.runSeq (Darray.frombuffer xs elem) ops = .ok (d, (ArrOp.specSeq xs ops).2) ∧
      Darray.toList d = .ok (ArrOp.specSeq xs ops).1 ∧
      (∀ i (h : i < (ArrOp.specSeq xs ops).1.length), Darray.get d i = .ok ((ArrOp.specSeq xs ops).1[i])) := by
  have r : Darray.Rep (Darray.frombuffer xs elem) xs :=
    ⟨rfl, List.length_pos_of_ne_nil hx, le_refl _, he, hb, by simp [Darray.frombuffer], ⟨[], by simp [Darray.frombuffer]⟩⟩
  obtain ⟨d, h1, h2⟩ := arr_runSeq_rep ops r hv
  exact ⟨d, h1, Darray.toList_rep h2, fun i h => Darray.get_rep h2 h⟩

example : ArrOp.validSeq 1 [7, 8] [.push 1, .insert 0 5, .remove 1] ∧
    (ArrOp.specSeq [7, 8] [.push 1, .insert 0 5, .remove 1]).1 = [5, 8, 1] := by
  simp [ArrOp.validSeq, ArrOp.valid, ArrOp.spec, ArrOp.specSeq, U32]

/-- **C01 fails** for an array made from an empty buffer: its capacity is zero and the first element added stops the process. -/
theorem C01_from_empty_buffer {α : Type} (elem pos : Nat) (v : α) :
    Darray.push (Darray.frombuffer [] elem) v = .abort ∧ Darray.insert (Darray.frombuffer [] elem) pos v = .abort := by
  have h : ∀ pos, Darray.makeslot (Darray.frombuffer ([] : List α) elem) pos = .abort := fun pos => rfl
  have hi : ∀ pos, Darray.insert (Darray.frombuffer ([] : List α) elem) pos v = .abort := by
    intro pos
    unfold Darray.insert
    split <;> rename_i h' <;> rw [h pos] at h' <;> first | rfl | cases h'
  exact ⟨by unfold Darray.push; exact hi _, hi _⟩

/-- **C01 (limit of the contract).** `set` beyond the end does not leave the array alone, as its header
promises: it grows the array and leaves unreadable slots in between. -/
theorem C01_set_beyond_end_grows :
    ∃ d0 d : Darray.DA Nat, Darray.new 4 8 = .ok d0 ∧ Darray.set d0 2 5 = .ok d ∧ d.size = 3 ∧
      Darray.get d 0 = .ub ∧ Darray.get d 1 = .ub ∧ Darray.get d 2 = .ok 5 := by
  refine ⟨{ elem := 8, cap := 4, size := 0, buf := [none, none, none, none] },
    { elem := 8, cap := 4, size := 3, buf := [none, none, some 5, none] }, rfl, ?_, rfl, rfl, rfl, rfl⟩
  unfold Darray.set
  rw [if_neg (by simp)]
  rw [Darray.insert_step (d' := { elem := 8, cap := 4, size := 1, buf := [none, none, none, none] }) rfl,
    if_neg (by simp),
    Darray.insert_step (d' := { elem := 8, cap := 4, size := 2, buf := [none, none, none, none] }) rfl,
    if_neg (by simp),
    Darray.insert_step (d' := ⟨8, 4, 3, [none, none, none, none]⟩) rfl]
  rfl

/-! ## C02: sorting -/

/-- **C02.** For every comparison that is a total preorder, sorting terminates without any
out-of-range access and yields a permutation of the input in non-decreasing order. -/
theorem C02_sort_ordered_permutation {α : Type} (cmp : α → α → Int)
    (htot : ∀ a b, cmp a b < 0 ∨ cmp b a ≤ 0)
    (htr : ∀ a b c, cmp a b ≤ 0 → cmp b c ≤ 0 → cmp a c ≤ 0) (l : List α) :
    ∃ l', Sort.sort cmp l = .ok l' ∧ l'.Perm l ∧ l'.Pairwise (fun a b => cmp a b ≤ 0) :=
  Sort.sort_spec cmp htot htr l

/-- The integer difference comparison meets the hypotheses. -/
example : (∀ a b : Int, a - b < 0 ∨ b - a ≤ 0) ∧
    (∀ a b c : Int, a - b ≤ 0 → b - c ≤ 0 → a - c ≤ 0) := by
  constructor <;> intros <;> omega

/-! ## C03 and C04: the dictionary -/

section
variable {K V : Type}

/-- Operations a client performs on a dictionary. -/
inductive DictOp (K V : Type) where
  | set (k : K) (v : V)
  | remove (k : K)

/-- Specification: an association list with at most one entry per key class. -/
def DictOp.spec (eqk : K → K → Bool) (m : List (K × V)) : DictOp K V → List (K × V)
  | .set k v => m.filter (fun e => !eqk k e.1) ++ [(k, v)]
  | .remove k => m.filter (fun e => !eqk k e.1)

/-- The association list after a sequence of operations. -/
def DictOp.specSeq (eqk : K → K → Bool) (ops : List (DictOp K V)) : List (K × V) :=
  ops.foldl (DictOp.spec eqk) []

/-- Specification as a function from keys to optional data. -/
def DictOp.mapSpec (eqk : K → K → Bool) (f : K → Option V) : DictOp K V → (K → Option V)
  | .set k v => fun x => if eqk x k then some v else f x
  | .remove k => fun x => if eqk x k then none else f x

/-- The function after a sequence of operations: the last operation on a key decides. -/
def DictOp.mapSeq (eqk : K → K → Bool) (ops : List (DictOp K V)) : K → Option V :=
  ops.foldl (DictOp.mapSpec eqk) (fun _ => none)

/-- The model operation; second component: entries handed to the destructor. -/
def DictOp.run (hash : K → Nat) (eqk : K → K → Bool) (d : Dict.Dict K V) :
    DictOp K V → Res (Dict.Dict K V × List (K × V))
  | .set k v => Dict.set hash eqk d k v
  | .remove k => do let (d, _, l) ← Dict.remove hash eqk d k; pure (d, l)

/-- The model over a sequence of operations, accumulating the destructor calls. -/
def DictOp.runSeq (hash : K → Nat) (eqk : K → K → Bool) :
    Dict.Dict K V → List (DictOp K V) → Res (Dict.Dict K V × List (K × V))
  | d, [] => .ok (d, [])
  | d, op :: ops => do
    let (d1, l1) ← op.run hash eqk d
    let (d2, l2) ← runSeq hash eqk d1 ops
    pure (d2, l1 ++ l2)

/-- The entries a sequence of operations stores. -/
def DictOp.stored : List (DictOp K V) → List (K × V)
  | [] => []
  | .set k v :: ops => (k, v) :: stored ops
  | .remove _ :: ops => stored ops

variable {hash : K → Nat} {eqk : K → K → Bool}

theorem dict_run (L : Dict.Lawful hash eqk) {d : Dict.Dict K V} (w : Dict.WF hash eqk d)
    {m : List (K × V)} (hm : (Dict.entries d).Perm m) (op : DictOp K V) :
    ∃ d' log, op.run hash eqk d = .ok (d', log) ∧ Dict.WF hash eqk d' ∧
      (Dict.entries d').Perm (op.spec eqk m) ∧
      (log ++ Dict.entries d').Perm (Dict.entries d ++ DictOp.stored [op]) := by
  have hsplit : ∀ k, ((Dict.entries d).filter (fun e => eqk k e.1) ++
      (Dict.entries d).filter (fun e => !eqk k e.1)).Perm (Dict.entries d) := fun k =>
    List.filter_append_perm _ _
  cases op with
  | set k v =>
    obtain ⟨d', log, h1, h2, _, h3, h4⟩ := Dict.set_spec L w k v
    refine ⟨d', log, h1, h2, ?_, ?_⟩
    · exact h3.trans ((hm.filter _).append_right _)
    · subst h4
      refine (h3.append_left _).trans ?_
      rw [← List.append_assoc]
      exact (hsplit k).append_right _
  | remove k =>
    obtain ⟨d', log, h1, h2, _, h3, h4⟩ := Dict.remove_spec L w k
    refine ⟨d', log, by simp [DictOp.run, h1], h2, h3.trans (hm.filter _), ?_⟩
    subst h4
    simp only [DictOp.stored, List.append_nil]
    exact (h3.append_left _).trans (hsplit k)

theorem dict_runSeq (L : Dict.Lawful hash eqk) : ∀ (ops : List (DictOp K V)) {d : Dict.Dict K V}
    {m : List (K × V)}, Dict.WF hash eqk d → (Dict.entries d).Perm m →
    ∃ d' log, DictOp.runSeq hash eqk d ops = .ok (d', log) ∧ Dict.WF hash eqk d' ∧
      (Dict.entries d').Perm (ops.foldl (DictOp.spec eqk) m) ∧
      (log ++ Dict.entries d').Perm (Dict.entries d ++ DictOp.stored ops)
  | [], d, m, w, hm => ⟨d, [], rfl, w, hm, by simp [DictOp.stored]⟩
  | op :: ops, d, m, w, hm => by
    obtain ⟨d1, l1, h1, h2, h3, h4⟩ := dict_run L w hm op
    obtain ⟨d2, l2, g1, g2, g3, g4⟩ := dict_runSeq L ops h2 h3
    refine ⟨d2, l1 ++ l2, by simp [DictOp.runSeq, h1, g1], g2, g3, ?_⟩
    rw [List.append_assoc]
    refine (g4.append_left l1).trans ?_
    rw [← List.append_assoc]
    refine (h4.append_right _).trans ?_
    rw [List.append_assoc]
    cases op <;> simp [DictOp.stored]

/-- In an association list with unique keys a lookup does not depend on the order. -/
theorem find_perm (L : Dict.Lawful hash eqk) {a b : List (K × V)}
    (ha : a.Pairwise (fun x y => eqk x.1 y.1 = false)) (h : a.Perm b) (k : K) :
    a.find? (fun e => eqk k e.1) = b.find? (fun e => eqk k e.1) := by
  have hb : b.Pairwise (fun x y => eqk x.1 y.1 = false) :=
    h.pairwise ha (fun {x y} hxy => by
      by_contra hne
      have : eqk y.1 x.1 = true := by simpa using hne
      rw [L.symm _ _ this] at hxy; cases hxy)
  have h1 := Dict.find_toList_eq_filter L k a ha
  have h2 := Dict.find_toList_eq_filter L k b hb
  have h3 : ((a.find? (fun e => eqk k e.1)).toList).Perm ((b.find? (fun e => eqk k e.1)).toList) := by
    rw [h1, h2]; exact h.filter _
  revert h3
  cases a.find? (fun e => eqk k e.1) <;> cases b.find? (fun e => eqk k e.1) <;> simp

theorem find_filter (L : Dict.Lawful hash eqk) (m : List (K × V)) (k x : K) :
    (m.filter (fun e => !eqk k e.1)).find? (fun e => eqk x e.1) =
      if eqk x k then none else m.find? (fun e => eqk x e.1) := by
  induction m with
  | nil => simp
  | cons e m ih =>
    by_cases h1 : eqk k e.1 = true
    · rw [List.filter_cons_of_neg (by simp [h1]), ih]
      split
      · rfl
      · rename_i hxk
        rw [List.find?_cons_of_neg]
        intro hx
        exact hxk (L.trans _ _ _ hx (L.symm _ _ h1))
    · rw [List.filter_cons_of_pos (by simpa using h1), List.find?_cons, List.find?_cons, ih]
      by_cases hxk : eqk x k = true
      · have : eqk x e.1 = false := by
          by_contra hne
          have hx : eqk x e.1 = true := by simpa using hne
          exact h1 (L.trans _ _ _ (L.symm _ _ hxk) hx)
        simp [this, hxk]
      · simp [hxk]

theorem mapSeq_eq (L : Dict.Lawful hash eqk) (x : K) : ∀ (ops : List (DictOp K V)) (m : List (K × V))
    (f : K → Option V), f x = (m.find? (fun e => eqk x e.1)).map (·.2) →
    (ops.foldl (DictOp.mapSpec eqk) f) x =
      ((ops.foldl (DictOp.spec eqk) m).find? (fun e => eqk x e.1)).map (·.2)
  | [], m, f, h => h
  | op :: ops, m, f, h => by
    apply mapSeq_eq L x ops
    cases op with
    | set k v =>
      simp only [DictOp.mapSpec, DictOp.spec, List.find?_append, find_filter L, h]
      by_cases hk : eqk x k = true
      · simp [hk]
      · simp [hk]
    | remove k =>
      simp only [DictOp.mapSpec, DictOp.spec, find_filter L, h]
      by_cases hk : eqk x k = true
      · simp [hk]
      · simp [hk]

/-- **C03.** From an empty dictionary, any sequence of operations runs without undefined behaviour;
then `get` returns the data of the last `set` of an equal key unless it was removed since, `exists`
agrees with it, and the size is the number of distinct keys present (modulo `2^32`, the width of the
counter): `keys` lists them without repetition. -/
theorem C03_dict_is_finite_map (L : Dict.Lawful hash eqk) (n : Nat) (hn : 0 < n) (ops : List (DictOp K V)) :
    ∃ d log, DictOp.runSeq hash eqk (Dict.new n) ops = .ok (d, log) ∧
      (∀ k, Dict.rawget hash eqk d k = .ok (DictOp.mapSeq eqk ops k)) ∧
      (∀ k, Dict.isIn hash eqk d k = .ok (DictOp.mapSeq eqk ops k).isSome) ∧
      ∃ keys : List K, d.size = keys.length % U32 ∧ keys.Pairwise (fun a b => eqk a b = false) ∧
        (∀ k, (DictOp.mapSeq eqk ops k).isSome = keys.any (fun k' => eqk k k')) := by
  obtain ⟨d, log, h1, h2, h3, _⟩ := dict_runSeq L ops (Dict.new_wf hn) (by rw [Dict.entries_new])
  have hg : ∀ k, Dict.rawget hash eqk d k = .ok (DictOp.mapSeq eqk ops k) := by
    intro k
    rw [Dict.rawget_spec L h2, find_perm L (Dict.entries_uniq L h2) h3 k]
    congr 1
    exact (mapSeq_eq L k ops [] (fun _ => none) rfl).symm
  refine ⟨d, log, h1, hg, ?_, (Dict.entries d).map (·.1), ?_, ?_, ?_⟩
  · intro k
    unfold Dict.isIn
    rw [hg k]
    rfl
  · rw [h2.size_eq, List.length_map]
  · rw [List.pairwise_map]; exact Dict.entries_uniq L h2
  · intro k
    have := hg k
    rw [Dict.rawget_spec L h2] at this
    rw [← Res.ok.inj this, Option.isSome_map, List.any_map, Bool.eq_iff_iff, List.find?_isSome, List.any_eq_true]
    rfl

/-- **C04 (iteration).** After any sequence of operations `foreach` visits exactly the present
entries: the visited keys are pairwise different, and a pair is visited iff it is what `get` returns for its key
and the key is the one last stored in its class. -/
theorem C04_foreach_exact (L : Dict.Lawful hash eqk) (n : Nat) (hn : 0 < n) (ops : List (DictOp K V)) :
    ∃ d log, DictOp.runSeq hash eqk (Dict.new n) ops = .ok (d, log) ∧
      (Dict.entries d).Perm (DictOp.specSeq eqk ops) ∧
      (Dict.entries d).Pairwise (fun a b => eqk a.1 b.1 = false) ∧
      (∀ k v, (∃ k', eqk k k' = true ∧ (k', v) ∈ Dict.entries d) ↔ DictOp.mapSeq eqk ops k = some v) := by
  obtain ⟨d, log, h1, h2, h3, _⟩ := dict_runSeq L ops (Dict.new_wf hn) (by rw [Dict.entries_new])
  have hu := Dict.entries_uniq L h2
  refine ⟨d, log, h1, h3, hu, ?_⟩
  intro k v
  unfold DictOp.mapSeq
  rw [mapSeq_eq L k ops [] (fun _ => none) rfl, ← find_perm L hu h3 k]
  have hft := Dict.find_toList_eq_filter L k _ hu
  constructor
  · rintro ⟨k', hk, hmem⟩
    have : (k', v) ∈ ((Dict.entries d).find? (fun e => eqk k e.1)).toList := by
      rw [hft]; exact List.mem_filter.mpr ⟨hmem, hk⟩
    rw [Option.mem_toList] at this
    rw [this]; rfl
  · intro h
    rw [Option.map_eq_some_iff] at h
    obtain ⟨⟨k', v'⟩, h, rfl⟩ := h
    exact ⟨k', List.find?_some (p := fun e : K × V => eqk k e.1) h, List.mem_of_find?_eq_some h⟩

/-- **C04 (disposal).** At any time the entries handed to the destructor together with the present
ones are exactly the entries ever stored, with multiplicity; after destroying the dictionary, every
entry ever stored has been handed to the destructor exactly once. -/
theorem C04_dispose_exact (L : Dict.Lawful hash eqk) (n : Nat) (hn : 0 < n) (ops : List (DictOp K V)) :
    ∃ d log, DictOp.runSeq hash eqk (Dict.new n) ops = .ok (d, log) ∧
      (log ++ Dict.entries d).Perm (DictOp.stored ops) ∧
      (log ++ Dict.destroy d).Perm (DictOp.stored ops) := by
  obtain ⟨d, log, h1, _, _, h4⟩ := dict_runSeq L ops (Dict.new_wf hn) (List.Perm.refl _)
  rw [Dict.entries_new, List.nil_append] at h4
  exact ⟨d, log, h1, h4, h4⟩

end

/-- Lawful instances exist: integer keys with the identity hash (`buzzdict_int32keyhash` hashes the bits). -/
example : Dict.Lawful (fun k : Nat => k) (fun a b => a == b) :=
  ⟨by simp, by simp, by simp, by simp⟩

/-- A history with collisions (one bucket), an overwrite and a removal. -/
example : DictOp.mapSeq (fun a b : Nat => a == b)
    [.set 1 "a", .set 2 "b", .set 1 "c", .remove 2, .set 3 "d"] 1 = some "c" := by decide

end Buzz.Props
