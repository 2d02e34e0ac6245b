import Verif.Basic
import Mathlib.Data.List.Basic
import Mathlib.Data.List.Perm.Basic

/-
Model of the unbalanced search tree of /repo/src/buzz/buzzset.c.  The id tree of
/repo/src/buzz/buzzstrman.c 52-146 is the same code specialised to `uint16_t` ids (see `Verif/Strman.lean`).

A node holds the element itself instead of a pointer to a heap copy.  The destructor calls are
represented by the list of elements `dstryf` was applied to.
-/
namespace Buzz.Tree

variable {α : Type}

/-- `struct buzzset_tree_s` (buzzset.h); `leaf` is NULL. -/
inductive T (α : Type) where
  | leaf
  | node (l : T α) (a : α) (r : T α)
  deriving Repr, DecidableEq

/-- `buzzset_tree_foreach` (buzzset.c 71-78): pre-order. -/
def toList : T α → List α
  | .leaf => []
  | .node l a r => a :: (toList l ++ toList r)

/-- `buzzset_tree_insert` (buzzset.c 41-65); the flag is `*added`. -/
def insert (cmp : α → α → Int) (x : α) : T α → T α × Bool
  | .leaf => (.node .leaf x .leaf, true)
  | .node l a r =>
    if cmp x a < 0 then
      let p := insert cmp x l
      (.node p.1 a r, p.2)
    else if cmp x a > 0 then
      let p := insert cmp x r
      (.node l a p.1, p.2)
    else (.node l a r, false)

/-- `buzzset_tree_find_min` (buzzset.c 84-89) on the non-empty tree `node l a r`. -/
def findMin : T α → α → α
  | .leaf, a => a
  | .node l a' _, _ => findMin l a'

/-- `buzzset_tree_remove` (buzzset.c 95-145); second component `*removed`, third the elements given to
`dstryf`. -/
def remove (cmp : α → α → Int) : T α → α → T α × Bool × List α
  | .leaf, _ => (.leaf, false, [])
  | .node l a r, x =>
    if cmp x a < 0 then
      let p := remove cmp l x
      (.node p.1 a r, p.2)
    else if cmp x a > 0 then
      let p := remove cmp r x
      (.node l a p.1, p.2)
    else
      match l, r with
      | .leaf, .leaf => (.leaf, true, [a])
      | l, .leaf => (l, true, [a])
      | .leaf, r => (r, true, [a])
      | .node ll la lr, .node rl ra rr =>
        let m := findMin rl ra
        let p := remove cmp (.node rl ra rr) m
        (.node (.node ll la lr) m p.1, p.2.1, a :: p.2.2)

/-- `buzzset_tree_find` (buzzset.c 151-166): the stored element. -/
def find (cmp : α → α → Int) (x : α) : T α → Option α
  | .leaf => none
  | .node l a r =>
    if cmp x a < 0 then find cmp x l
    else if cmp x a > 0 then find cmp x r
    else some a

/-- `struct buzzset_s`: tree and element count. -/
structure S (α : Type) where
  tree : T α
  size : Nat
  deriving Repr

/-- `buzzset_new` (buzzset.c 171-181). -/
def new : S α := ⟨.leaf, 0⟩

/-- `buzzset_insert` (buzzset.c 198-203). -/
def S.insert (cmp : α → α → Int) (s : S α) (x : α) : S α :=
  let p := Tree.insert cmp x s.tree
  ⟨p.1, if p.2 then s.size + 1 else s.size⟩

/-- `buzzset_remove` (buzzset.c 208-213).  `size` is unsigned; it is only decremented after a removal. -/
def S.remove (cmp : α → α → Int) (s : S α) (x : α) : S α × List α :=
  let p := Tree.remove cmp s.tree x
  (⟨p.1, if p.2.1 then s.size - 1 else s.size⟩, p.2.2)

/-- `buzzset_find` (buzzset.c 218-223). -/
def S.find (cmp : α → α → Int) (s : S α) (x : α) : Option α := Tree.find cmp x s.tree

/-! ### Lemmas -/

/-- A comparison function that defines a total preorder through its sign. -/
structure Lawful (cmp : α → α → Int) : Prop where
  swap : ∀ a b, cmp a b < 0 ↔ cmp b a > 0
  trans : ∀ a b c, cmp a b < 0 → cmp b c < 0 → cmp a c < 0
  eq_lt : ∀ a b c, cmp a b = 0 → cmp b c < 0 → cmp a c < 0

namespace Lawful
variable {cmp : α → α → Int} (L : Lawful cmp)
include L

theorem refl (a : α) : cmp a a = 0 := by
  have := L.swap a a; omega

theorem symm {a b : α} (h : cmp a b = 0) : cmp b a = 0 := by
  have h1 := L.swap a b; have h2 := L.swap b a; omega

theorem lt_eq {a b c : α} (h1 : cmp a b < 0) (h2 : cmp b c = 0) : cmp a c < 0 := by
  have h3 := (L.swap a b).mp h1
  by_contra hn
  rcases Int.lt_trichotomy (cmp a c) 0 with h | h | h
  · exact hn h
  · -- c = a, hence a < b = c gives c < b
    have hca := L.symm h
    have := L.eq_lt _ _ _ hca h1
    have h5 := L.symm h2
    omega
  · have hca : cmp c a < 0 := (L.swap c a).mpr h
    have := L.trans _ _ _ hca h1
    have h5 := L.symm h2
    omega

theorem eq_trans {a b c : α} (h1 : cmp a b = 0) (h2 : cmp b c = 0) : cmp a c = 0 := by
  rcases Int.lt_trichotomy (cmp a c) 0 with h | h | h
  · have := L.eq_lt _ _ _ (L.symm h1) h; omega
  · exact h
  · have hca := (L.swap c a).mpr h
    have := L.eq_lt _ _ _ h2 hca
    have h5 := L.symm h1
    omega

end Lawful

/-- Search-tree order. -/
def BST (cmp : α → α → Int) : T α → Prop
  | .leaf => True
  | .node l a r => BST cmp l ∧ BST cmp r ∧ (∀ y ∈ toList l, cmp y a < 0) ∧ (∀ y ∈ toList r, cmp a y < 0)

variable {cmp : α → α → Int}

theorem findMin_mem : ∀ (l : T α) (a : α) (r : T α), findMin l a ∈ toList (.node l a r)
  | .leaf, a, r => by simp [findMin, toList]
  | .node l a' r', a, r => by
    have := findMin_mem l a' r'
    simp only [findMin]
    simp only [toList] at this ⊢
    simp only [List.mem_cons, List.mem_append] at this ⊢
    tauto

theorem findMin_le (L : Lawful cmp) : ∀ (l : T α) (a : α) (r : T α), BST cmp (.node l a r) →
    ∀ y ∈ toList (.node l a r), cmp (findMin l a) y ≤ 0
  | .leaf, a, r, h => by
    intro y hy
    simp [toList] at hy
    simp only [findMin]
    rcases hy with hy | hy
    · subst hy; have := L.refl y; omega
    · have := h.2.2.2 y hy; omega
  | .node l a' r', a, r, h => by
    intro y hy
    have ih := findMin_le L l a' r' h.1
    simp only [findMin]
    have hlt : ∀ z, cmp a z ≤ 0 → cmp (findMin l a') z ≤ 0 := by
      intro z hz
      have hm := findMin_mem l a' r'
      have h1 := h.2.2.1 _ hm
      by_cases h0 : cmp a z = 0
      · have := L.lt_eq h1 h0; omega
      · have := L.trans _ _ z h1 (by omega); omega
    simp only [toList, List.mem_cons, List.mem_append] at hy
    rcases hy with hy | hy | hy
    · subst hy; exact hlt _ (by have := L.refl y; omega)
    · exact ih y (by simp only [toList, List.mem_cons, List.mem_append]; tauto)
    · have := h.2.2.2 y hy
      exact hlt _ (by omega)

theorem pairwise_ne (L : Lawful cmp) : ∀ (t : T α), BST cmp t →
    (toList t).Pairwise (fun a b => cmp a b ≠ 0)
  | .leaf, _ => by simp [toList]
  | .node l a r, h => by
    simp only [toList, List.pairwise_cons, List.pairwise_append]
    refine ⟨?_, pairwise_ne L l h.1, pairwise_ne L r h.2.1, ?_⟩
    · intro b hb
      rcases List.mem_append.mp hb with hb | hb
      · have := h.2.2.1 b hb
        have h2 := (L.swap b a).mp this
        omega
      · have := h.2.2.2 b hb; omega
    · intro x hx y hy
      have := L.trans _ _ _ (h.2.2.1 x hx) (h.2.2.2 y hy)
      omega

theorem insert_spec (L : Lawful cmp) (x : α) : ∀ (t : T α), BST cmp t →
    BST cmp (insert cmp x t).1 ∧
    (insert cmp x t).2 = !((toList t).any (fun y => cmp x y == 0)) ∧
    (toList (insert cmp x t).1).Perm
      (if (toList t).any (fun y => cmp x y == 0) then toList t else x :: toList t)
  | .leaf, _ => by simp [insert, BST, toList]
  | .node l a r, h => by
    obtain ⟨hl, hr, hla, har⟩ := h
    obtain ⟨il1, il2, il3⟩ := insert_spec L x l hl
    obtain ⟨ir1, ir2, ir3⟩ := insert_spec L x r hr
    unfold insert
    split
    · rename_i hlt
      have hr0 : (toList r).any (fun y => cmp x y == 0) = false := by
        rw [List.any_eq_false]; intro y hy
        have := L.trans _ _ _ hlt (har y hy)
        simp; omega
      have ha0 : (cmp x a == 0) = false := by simp; omega
      have hany : (toList (.node l a r)).any (fun y => cmp x y == 0) = (toList l).any (fun y => cmp x y == 0) := by
        simp [toList, hr0, ha0]
      rw [hany]
      refine ⟨⟨il1, hr, ?_, har⟩, il2, ?_⟩
      · intro y hy
        have hy' := il3.mem_iff.mp hy
        split at hy'
        · exact hla y hy'
        · rcases List.mem_cons.mp hy' with h1 | h1
          · subst h1; exact hlt
          · exact hla y h1
      · simp only [toList]
        split
        · rename_i hc
          rw [hc] at il3
          exact (List.Perm.append_right _ il3).cons _
        · rename_i hc
          rw [if_neg hc] at il3
          exact ((List.Perm.append_right _ il3).cons _).trans (List.Perm.swap _ _ _)
    · split
      · rename_i hnlt hgt
        have hax : cmp a x < 0 := (L.swap a x).mpr hgt
        have hl0 : (toList l).any (fun y => cmp x y == 0) = false := by
          rw [List.any_eq_false]; intro y hy
          have := (L.swap y x).mp (L.trans _ _ _ (hla y hy) hax)
          simp; omega
        have ha0 : (cmp x a == 0) = false := by simp; omega
        have hany : (toList (.node l a r)).any (fun y => cmp x y == 0) = (toList r).any (fun y => cmp x y == 0) := by
          simp [toList, hl0, ha0]
        rw [hany]
        refine ⟨⟨hl, ir1, hla, ?_⟩, ir2, ?_⟩
        · intro y hy
          have hy' := ir3.mem_iff.mp hy
          split at hy'
          · exact har y hy'
          · rcases List.mem_cons.mp hy' with h1 | h1
            · subst h1; exact hax
            · exact har y h1
        · simp only [toList]
          split
          · rename_i hc
            rw [hc] at ir3
            exact (List.Perm.append_left _ ir3).cons _
          · rename_i hc
            rw [if_neg hc] at ir3
            refine ((List.Perm.append_left _ ir3).cons _).trans ?_
            refine (List.perm_middle.cons _).trans (List.Perm.swap _ _ _)
      · rename_i h1 h2
        have ha0 : cmp x a = 0 := by omega
        refine ⟨⟨hl, hr, hla, har⟩, ?_, ?_⟩ <;> simp [toList, ha0]

theorem find_spec (L : Lawful cmp) (x : α) : ∀ (t : T α), BST cmp t →
    find cmp x t = (toList t).find? (fun y => cmp x y == 0)
  | .leaf, _ => rfl
  | .node l a r, h => by
    obtain ⟨hl, hr, hla, har⟩ := h
    unfold find
    split
    · rename_i hlt
      have hr0 : (toList r).find? (fun y => cmp x y == 0) = none := by
        rw [List.find?_eq_none]; intro y hy
        have := L.trans _ _ _ hlt (har y hy)
        simp; omega
      rw [find_spec L x l hl, toList, List.find?_cons_of_neg (by simp; omega), List.find?_append, hr0]
      simp
    · split
      · rename_i hnlt hgt
        have hax : cmp a x < 0 := (L.swap a x).mpr hgt
        have hl0 : (toList l).find? (fun y => cmp x y == 0) = none := by
          rw [List.find?_eq_none]; intro y hy
          have := (L.swap y x).mp (L.trans _ _ _ (hla y hy) hax)
          simp; omega
        rw [find_spec L x r hr, toList, List.find?_cons_of_neg (by simp; omega), List.find?_append, hl0]
        simp
      · rename_i h1 h2
        have ha0 : cmp x a = 0 := by omega
        simp [toList, ha0]

theorem filter_ne_all {l : List α} {x : α} (h : ∀ y ∈ l, cmp x y ≠ 0) :
    l.filter (fun y => cmp x y != 0) = l := by
  rw [List.filter_eq_self]; intro a ha; simpa using h a ha

theorem perm_min_filter (L : Lawful cmp) {l : List α} (hp : l.Pairwise (fun a b => cmp a b ≠ 0)) {m : α}
    (hm : m ∈ l) : (m :: l.filter (fun y => cmp m y != 0)).Perm l := by
  induction l with
  | nil => cases hm
  | cons a l ih =>
    rw [List.pairwise_cons] at hp
    by_cases hma : m = a
    · subst hma
      rw [List.filter_cons_of_neg (by simp [L.refl]), filter_ne_all hp.1]
    · have hml : m ∈ l := by
        rcases List.mem_cons.mp hm with h | h
        · exact absurd h hma
        · exact h
      have hne : cmp m a ≠ 0 := fun h => hp.1 m hml (L.symm h)
      rw [List.filter_cons_of_pos (by simpa using hne)]
      exact (List.Perm.swap _ _ _).trans ((ih hp.2 hml).cons _)

theorem remove_spec (L : Lawful cmp) : ∀ (t : T α) (x : α), BST cmp t →
    BST cmp (remove cmp t x).1 ∧
    (remove cmp t x).2.1 = (toList t).any (fun y => cmp x y == 0) ∧
    (toList (remove cmp t x).1).Perm ((toList t).filter (fun y => cmp x y != 0))
  | .leaf, x, _ => by simp [remove, BST, toList]
  | .node l a r, x, h => by
    obtain ⟨hl, hr, hla, har⟩ := h
    unfold remove
    split
    · rename_i hlt
      obtain ⟨i1, i2, i3⟩ := remove_spec L l x hl
      have hrn : ∀ y ∈ toList r, cmp x y ≠ 0 := by
        intro y hy
        have := L.trans _ _ _ hlt (har y hy)
        omega
      have hr0 : (toList r).any (fun y => cmp x y == 0) = false := by
        rw [List.any_eq_false]; intro y hy; simpa using hrn y hy
      refine ⟨⟨i1, hr, ?_, har⟩, ?_, ?_⟩
      · intro y hy
        exact hla y (List.mem_filter.mp (i3.mem_iff.mp hy)).1
      · simp only [i2, toList, List.any_cons, List.any_append, hr0, Bool.or_false]
        have : (cmp x a == 0) = false := by simp; omega
        simp [this]
      · simp only [toList]
        rw [List.filter_cons_of_pos (by simp; omega), List.filter_append, filter_ne_all hrn]
        exact (List.Perm.append_right _ i3).cons _
    · split
      · rename_i hnlt hgt
        have hax : cmp a x < 0 := (L.swap a x).mpr hgt
        obtain ⟨i1, i2, i3⟩ := remove_spec L r x hr
        have hln : ∀ y ∈ toList l, cmp x y ≠ 0 := by
          intro y hy
          have := (L.swap y x).mp (L.trans _ _ _ (hla y hy) hax)
          omega
        have hl0 : (toList l).any (fun y => cmp x y == 0) = false := by
          rw [List.any_eq_false]; intro y hy; simpa using hln y hy
        refine ⟨⟨hl, i1, hla, ?_⟩, ?_, ?_⟩
        · intro y hy
          exact har y (List.mem_filter.mp (i3.mem_iff.mp hy)).1
        · simp only [i2, toList, List.any_cons, List.any_append, hl0, Bool.false_or]
          have : (cmp x a == 0) = false := by simp; omega
          simp [this]
        · simp only [toList]
          rw [List.filter_cons_of_pos (by simp; omega), List.filter_append, filter_ne_all hln]
          exact (List.Perm.append_left _ i3).cons _
      · rename_i h1 h2
        have ha0 : cmp x a = 0 := by omega
        have hln : ∀ y ∈ toList l, cmp x y ≠ 0 := by
          intro y hy
          have hya := hla y hy
          have := L.lt_eq hya (L.symm ha0)
          have := (L.swap y x).mp this
          omega
        have hrn : ∀ y ∈ toList r, cmp x y ≠ 0 := by
          intro y hy
          have := L.eq_lt _ _ _ ha0 (har y hy)
          omega
        have hany : (toList (.node l a r)).any (fun y => cmp x y == 0) = true := by
          simp [toList, ha0]
        have hflt : (toList (.node l a r)).filter (fun y => cmp x y != 0) = toList l ++ toList r := by
          simp only [toList]
          rw [List.filter_cons_of_neg (by simp [ha0]), List.filter_append, filter_ne_all hln, filter_ne_all hrn]
        rw [hany, hflt]
        split
        · simp [BST, toList]
        · exact ⟨hl, rfl, by simp [toList]⟩
        · exact ⟨hr, rfl, by simp [toList]⟩
        · rename_i ll la lr rl ra rr
          obtain ⟨i1, i2, i3⟩ := remove_spec L (.node rl ra rr) (findMin rl ra) hr
          have hm := findMin_mem rl ra rr
          have hmin := findMin_le L rl ra rr hr
          refine ⟨⟨hl, i1, ?_, ?_⟩, ?_, ?_⟩
          · intro y hy
            exact L.trans _ _ _ (hla y hy) (har _ hm)
          · intro y hy
            have hy' := List.mem_filter.mp (i3.mem_iff.mp hy)
            have h3 := hmin y hy'.1
            have h4 : cmp (findMin rl ra) y ≠ 0 := by simpa using hy'.2
            omega
          · rw [i2, List.any_eq_true]
            exact ⟨_, hm, by simp [L.refl]⟩
          · rw [toList]
            have hp := perm_min_filter L (pairwise_ne L _ hr) hm
            refine List.perm_middle.symm.trans ?_
            exact (List.Perm.append_left _ ((i3.cons _).trans hp))

end Buzz.Tree
