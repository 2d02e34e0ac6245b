import Verif.Tree
import Verif.Strman

/-! Property theorems C05 (tree set), C06 and C07 (string manager). -/
namespace Buzz.Props

/-! ## C05: the tree set -/

/-- Operations on a set. -/
inductive SetOp (α : Type) where
  | insert (x : α)
  | remove (x : α)

/-- Specification on lists without repetitions: an element equal to a present one is not inserted. -/
def SetOp.spec {α : Type} (cmp : α → α → Int) (m : List α) : SetOp α → List α
  | .insert x => if m.any (fun y => cmp x y == 0) then m else x :: m
  | .remove x => m.filter (fun y => cmp x y != 0)

/-- Model operation. -/
def SetOp.run {α : Type} (cmp : α → α → Int) (s : Tree.S α) : SetOp α → Tree.S α
  | .insert x => s.insert cmp x
  | .remove x => (s.remove cmp x).1

theorem any_perm {α : Type} {p : α → Bool} {a b : List α} (h : a.Perm b) : a.any p = b.any p := by
  rw [Bool.eq_iff_iff, List.any_eq_true, List.any_eq_true]
  constructor
  · rintro ⟨x, hx, hp⟩; exact ⟨x, h.mem_iff.mp hx, hp⟩
  · rintro ⟨x, hx, hp⟩; exact ⟨x, h.mem_iff.mpr hx, hp⟩

theorem set_run {α : Type} {cmp : α → α → Int} (L : Tree.Lawful cmp) {s : Tree.S α}
    (h : Tree.BST cmp s.tree) {m : List α} (hp : (Tree.toList s.tree).Perm m) (hs : s.size = m.length)
    (op : SetOp α) :
    Tree.BST cmp (op.run cmp s).tree ∧ (Tree.toList (op.run cmp s).tree).Perm (op.spec cmp m) ∧
      (op.run cmp s).size = (op.spec cmp m).length := by
  cases op with
  | insert x =>
    obtain ⟨h1, h2, h3⟩ := Tree.insert_spec L x s.tree h
    have hany := any_perm (p := fun y => cmp x y == 0) hp
    rw [hany] at h2 h3
    refine ⟨h1, ?_, ?_⟩
    · simp only [SetOp.run, SetOp.spec, Tree.S.insert]
      refine h3.trans ?_
      split
      · exact hp
      · exact hp.cons _
    · simp only [SetOp.run, SetOp.spec, Tree.S.insert, h2]
      cases m.any (fun y => cmp x y == 0) <;> simp [hs]
  | remove x =>
    obtain ⟨h1, h2, h3⟩ := Tree.remove_spec L s.tree x h
    have hpw := Tree.pairwise_ne L s.tree h
    refine ⟨h1, h3.trans (hp.filter _), ?_⟩
    simp only [SetOp.run, SetOp.spec, Tree.S.remove, h2]
    rw [hs, ← (hp.filter _).length_eq, ← hp.length_eq]
    -- the number of elements equal to x is 0 or 1
    have hcount : ((Tree.toList s.tree).filter (fun y => cmp x y == 0)).length =
        if (Tree.toList s.tree).any (fun y => cmp x y == 0) then 1 else 0 := by
      generalize Tree.toList s.tree = l at hpw
      induction l with
      | nil => rfl
      | cons a l ih =>
        rw [List.pairwise_cons] at hpw
        by_cases ha : cmp x a = 0
        · have : l.filter (fun y => cmp x y == 0) = [] := by
            rw [List.filter_eq_nil_iff]
            intro b hb hxb
            exact hpw.1 b hb (L.eq_trans (L.symm ha) (by simpa using hxb))
          simp [ha, this]
        · rw [List.filter_cons_of_neg (by simpa using ha), ih hpw.2]
          have : (cmp x a == 0) = false := by simpa using ha
          simp [this]
    have htot := List.length_eq_length_filter_add (l := Tree.toList s.tree) (fun y => cmp x y == 0)
    have hneq : (Tree.toList s.tree).filter (fun y => cmp x y != 0) =
        (Tree.toList s.tree).filter (fun y => !(cmp x y == 0)) := rfl
    rw [hneq]
    split at hcount <;> simp_all <;> omega

/-- **C05.** After any sequence of insertions and removals the set contains exactly the specification's
elements: lookup finds the member equal to the argument iff there is one, the size is the number of members, and
iteration visits each member exactly once. -/
theorem C05_set_is_a_set {α : Type} {cmp : α → α → Int} (L : Tree.Lawful cmp) (ops : List (SetOp α)) :
    let s := ops.foldl (SetOp.run cmp) Tree.new
    let m := ops.foldl (SetOp.spec cmp) []
    (Tree.toList s.tree).Perm m ∧ s.size = m.length ∧
    m.Pairwise (fun a b => cmp a b ≠ 0) ∧
    (∀ x y, s.find cmp x = some y ↔ y ∈ m ∧ cmp x y = 0) ∧
    (∀ x, s.find cmp x = none ↔ ∀ y ∈ m, cmp x y ≠ 0) := by
  have gen : ∀ (ops : List (SetOp α)) (s : Tree.S α) (m : List α), Tree.BST cmp s.tree →
      (Tree.toList s.tree).Perm m → s.size = m.length →
      Tree.BST cmp (ops.foldl (SetOp.run cmp) s).tree ∧
      (Tree.toList (ops.foldl (SetOp.run cmp) s).tree).Perm (ops.foldl (SetOp.spec cmp) m) ∧
      (ops.foldl (SetOp.run cmp) s).size = (ops.foldl (SetOp.spec cmp) m).length := by
    intro ops
    induction ops with
    | nil => intro s m h1 h2 h3; exact ⟨h1, h2, h3⟩
    | cons op ops ih =>
      intro s m h1 h2 h3
      obtain ⟨a, b, c⟩ := set_run L h1 h2 h3 op
      exact ih _ _ a b c
  obtain ⟨h1, h2, h3⟩ := gen ops Tree.new [] (by simp [Tree.new, Tree.BST]) (by simp [Tree.new, Tree.toList]) rfl
  have hpw := Tree.pairwise_ne L _ h1
  have hpm : (ops.foldl (SetOp.spec cmp) []).Pairwise (fun a b => cmp a b ≠ 0) :=
    h2.pairwise hpw (fun {a b} hab he => hab (L.symm he))
  refine ⟨h2, h3, hpm, ?_, ?_⟩
  · intro x y
    unfold Tree.S.find
    rw [Tree.find_spec L x _ h1]
    constructor
    · intro h
      exact ⟨h2.mem_iff.mp (List.mem_of_find?_eq_some h), by simpa using List.find?_some h⟩
    · rintro ⟨hm, hc⟩
      have hy := h2.mem_iff.mpr hm
      cases hf : (Tree.toList (ops.foldl (SetOp.run cmp) Tree.new).tree).find? (fun y => cmp x y == 0) with
      | none =>
        have := List.find?_eq_none.mp hf y hy
        simp [hc] at this
      | some z =>
        have hz := List.mem_of_find?_eq_some hf
        have hcz : cmp x z = 0 := by simpa using List.find?_some hf
        congr 1
        -- z and y are equal in the order, so they are the same element
        by_contra hne
        have hzy : cmp z y = 0 := L.eq_trans (L.symm hcz) hc
        rw [List.mem_iff_getElem] at hz hy
        obtain ⟨i, hi, hzi⟩ := hz
        obtain ⟨j, hj, hyj⟩ := hy
        rw [List.pairwise_iff_getElem] at hpw
        rcases Nat.lt_trichotomy i j with hij | hij | hij
        · have := hpw i j hi hj hij
          rw [hzi, hyj] at this; exact this hzy
        · subst hij; exact hne (hzi.symm.trans hyj)
        · have := hpw j i hj hi hij
          rw [hzi, hyj] at this; exact this (L.symm hzy)
  · intro x
    unfold Tree.S.find
    rw [Tree.find_spec L x _ h1, List.find?_eq_none]
    constructor
    · intro h y hy
      simpa using h y (h2.mem_iff.mpr hy)
    · intro h y hy
      simpa using h y (h2.mem_iff.mp hy)

/-- The integer comparison is lawful. -/
example : Tree.Lawful (fun a b : Int => a - b) :=
  ⟨by intros; omega, by intro a b c; omega, by intro a b c; omega⟩

/-- A removal of a node with two children leaves the other members. -/
example : (([.insert 5, .insert 2, .insert 8, .insert 7, .remove 5] : List (SetOp Int)).foldl
    (SetOp.spec (fun a b => a - b)) []) = [7, 8, 2] := by decide

/-- **C05 (defect).** Removing a member whose node has two children calls the element destructor also on
the minimum of the right subtree, which stays in the set. -/
theorem C05_remove_destroys_a_live_member :
    ∃ (ops : List (SetOp Int)) (x y : Int),
      let cmp := fun a b : Int => a - b
      let s := ops.foldl (SetOp.run cmp) Tree.new
      y ≠ x ∧ y ∈ (s.remove cmp x).2 ∧ (s.remove cmp x).1.find cmp y = some y :=
  ⟨[.insert 5, .insert 2, .insert 8], 5, 8, by decide⟩

/-! ## C06 and C07: the string manager -/

section
variable {S : Type} [DecidableEq S]

/-- Histories of a string manager: registrations while at most 65533 strings are live, and
collections with arbitrary marks. -/
inductive SmReach : Strman.SM S → Prop
  | new : SmReach Strman.new
  | register {sm sm' : Strman.SM S} {s : S} {p : Bool} {id : Nat} (h : SmReach sm)
      (hl : sm.id2str.length ≤ 65533) (hr : Strman.register sm s p = .ok (sm', id)) : SmReach sm'
  | gc {sm sm' : Strman.SM S} {marks : List Nat} (h : SmReach sm)
      (hr : Strman.gc sm marks = .ok sm') : SmReach sm'

theorem smReach_inv {sm : Strman.SM S} (h : SmReach sm) : Strman.Inv sm := by
  induction h with
  | new => exact Strman.new_inv
  | @register sm sm' s p id _ hl hr ih =>
    cases hs : FMap.get sm.str2id s with
    | some i =>
      obtain ⟨sm1, h1, h2, _⟩ := Strman.register_old ih hs p
      rw [hr] at h1; cases h1; exact h2
    | none =>
      obtain ⟨sm1, i, h1, h2, _⟩ := Strman.register_new ih hs p hl
      rw [hr] at h1; cases h1; exact h2
  | @gc sm sm' marks _ hr ih =>
    obtain ⟨sm1, h1, h2, _⟩ := Strman.gc_spec ih marks
    rw [hr] at h1; cases h1; exact h2

/-- **C06 (bijection).** In every reachable state ids and contents of live strings determine each
other. -/
theorem C06_ids_injective {sm : Strman.SM S} (h : SmReach sm) (i j : Nat) (s t : S)
    (hi : Strman.get sm i = some s) (hj : Strman.get sm j = some t) : i = j ↔ s = t := by
  have hv := smReach_inv h
  unfold Strman.get at hi hj
  rw [Option.map_eq_some_iff] at hi hj
  obtain ⟨⟨s', p⟩, hi, rfl⟩ := hi
  obtain ⟨⟨t', q⟩, hj, rfl⟩ := hj
  constructor
  · intro he; subst he; rw [hi] at hj; cases hj; rfl
  · intro he
    have h1 := hv.back _ _ _ hi
    have h2 := hv.back _ _ _ hj
    simp only at he
    rw [he, h2] at h1
    cases h1; rfl

/-- **C06 (registration).** In every reachable state with at most 65533 live strings, registering `s`
terminates with an id in range whose content is then `s`; a live string gets its existing id, a new one an id
that was not live; every live string keeps its id and content; and nothing else becomes live. -/
theorem C06_register {sm : Strman.SM S} (h : SmReach sm) (hl : sm.id2str.length ≤ 65533) (s : S) (p : Bool) :
    ∃ sm' id, Strman.register sm s p = .ok (sm', id) ∧ id < U16 ∧ Strman.get sm' id = some s ∧
      (∀ i, Strman.get sm i = some s → id = i) ∧
      ((∀ i, Strman.get sm i ≠ some s) → Strman.get sm id = none) ∧
      (∀ i, i ≠ id → Strman.get sm' i = Strman.get sm i) := by
  have hv := smReach_inv h
  have key : ∀ i, Strman.get sm i = some s → FMap.get sm.str2id s = some i := by
    intro i hi
    unfold Strman.get at hi
    rw [Option.map_eq_some_iff] at hi
    obtain ⟨⟨s', q⟩, hi, rfl⟩ := hi
    exact hv.back _ _ _ hi
  cases hs : FMap.get sm.str2id s with
  | some i =>
    obtain ⟨sm1, h1, h2, h3, _⟩ := Strman.register_old hv hs p
    obtain ⟨q, hq⟩ := hv.there _ _ hs
    have hgi : Strman.get sm i = some s := by unfold Strman.get; rw [hq]; rfl
    refine ⟨sm1, i, h1, hv.small i (by rw [hq]; rfl), by rw [h3]; exact hgi, ?_, ?_, fun j _ => h3 j⟩
    · intro j hj
      have := key j hj
      rw [hs] at this; cases this; rfl
    · intro hno; exact absurd hgi (hno i)
  | none =>
    obtain ⟨sm1, i, h1, h2, h3, h4, _⟩ := Strman.register_new hv hs p hl
    refine ⟨sm1, i, h1, h2.small i (by rw [h4]; simp), ?_, ?_, ?_, ?_⟩
    · unfold Strman.get; rw [h4]; simp
    · intro j hj
      have := key j hj
      rw [hs] at this; cases this
    · intro _; unfold Strman.get; rw [h3]; rfl
    · intro j hj; unfold Strman.get; rw [h4, if_neg hj]

/-- Reachable states with several strings exist: two registrations give different ids. -/
example : ∃ sm1 sm2 : Strman.SM String, Strman.register Strman.new "a" true = .ok (sm1, 0) ∧
    Strman.register sm1 "b" false = .ok (sm2, 1) :=
  ⟨⟨[("a", 0)], [(0, ("a", true))], 1⟩, ⟨[("a", 0), ("b", 1)], [(0, ("a", true)), (1, ("b", false))], 2⟩, rfl, rfl⟩

/-- **C06 (limit).** If all 65536 ids but one are live, one more new string takes the last id and the
following registration of a new string never returns. -/
theorem C06_exhaustion_hangs {sm : Strman.SM S} (hv : Strman.Inv sm)
    (hfull : ∀ i, i < U16 → i ≠ sm.maxsid → (FMap.get sm.id2str i).isSome)
    {sm' : Strman.SM S} {s t : S} {p q : Bool} {id : Nat} (hs : FMap.get sm.str2id s = none)
    (hr : Strman.register sm s p = .ok (sm', id)) (ht : FMap.get sm'.str2id t = none) :
    Strman.register sm' t q = .hang := by
  have hall : ∀ i, i < U16 → (FMap.get sm'.id2str i).isSome := by
    intro i hi
    unfold Strman.register at hr
    rw [hs] at hr
    simp only at hr
    split at hr
    · cases hr
      simp only [FMap.get_set]
      split
      · rfl
      · rename_i hne; exact hfull i hi hne
    · cases hr
  have hskip : ∀ n i, i < U16 → Strman.skip sm'.id2str n i = .hang := by
    intro n
    induction n with
    | zero => intro i _; rfl
    | succ n ih =>
      intro i hi
      unfold Strman.skip
      rw [if_pos (hall i hi)]
      exact ih _ (Nat.mod_lt _ (by simp [U16]))
  unfold Strman.register
  rw [ht]
  simp only
  rw [hskip]
  split
  · simp [U16]
  · exact Nat.mod_lt _ (by simp [U16])

/-- **C07.** In every reachable state a collection with marks `marks` terminates without touching
missing entries, and a string is live afterwards, with the same id, content and protection, iff it was
live and is protected or its id was marked. -/
theorem C07_string_collection_exact {sm : Strman.SM S} (h : SmReach sm) (marks : List Nat) :
    ∃ sm', Strman.gc sm marks = .ok sm' ∧
      ∀ i s p, FMap.get sm'.id2str i = some (s, p) ↔
        FMap.get sm.id2str i = some (s, p) ∧ (p = true ∨ i ∈ marks) := by
  obtain ⟨sm', h1, _, h3, _⟩ := Strman.gc_spec (smReach_inv h) marks
  exact ⟨sm', h1, h3⟩

/-- Registering with `protect` makes the string survive every collection. -/
theorem C07_protected_survives {sm sm1 sm2 : Strman.SM S} (h : SmReach sm) (hl : sm.id2str.length ≤ 65533)
    {s : S} {id : Nat} (hr : Strman.register sm s true = .ok (sm1, id)) (marks : List Nat)
    (hg : Strman.gc sm1 marks = .ok sm2) : Strman.get sm2 id = some s := by
  have hv := smReach_inv h
  have hp : FMap.get sm1.id2str id = some (s, true) := by
    cases hs : FMap.get sm.str2id s with
    | some i =>
      obtain ⟨sm', h1, _, _, _, h5, _⟩ := Strman.register_old hv hs true
      rw [hr] at h1; cases h1
      obtain ⟨q, hq⟩ := hv.there _ _ hs
      exact (h5 _ _ _).mpr ⟨q, hq, by simp⟩
    | none =>
      obtain ⟨sm', i, h1, _, _, h4, _⟩ := Strman.register_new hv hs true hl
      rw [hr] at h1; cases h1
      rw [h4]; simp
  obtain ⟨sm', h1, h2⟩ := C07_string_collection_exact (.register h hl hr) marks
  rw [hg] at h1; cases h1
  unfold Strman.get
  rw [(h2 id s true).mpr ⟨hp, Or.inl rfl⟩]; rfl

end
end Buzz.Props
