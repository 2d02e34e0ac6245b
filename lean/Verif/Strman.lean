import Verif.Tree
import Verif.FMap
import Mathlib.Data.List.Perm.Subperm

/-
Model of the string manager /repo/src/buzz/buzzstrman.c.

The two dictionaries are finite maps (`Verif/FMap.lean`).  `S` is the type of string contents; `strcmp`
equality is equality of contents.  The id tree of lines 52-146 is the search tree of `Verif/Tree.lean`
with the integer comparison.  Memory of the strings themselves is not modelled.
-/
namespace Buzz.Strman

variable {S : Type} [DecidableEq S]

/-- `struct buzzstrman_s`; an `id2str` record is `buzzid2strdata_s` (15-18): contents and protect flag. -/
structure SM (S : Type) where
  str2id : List (S × Nat)
  id2str : List (Nat × (S × Bool))
  maxsid : Nat
  deriving Repr

/-- `buzzstrman_new` (150-167). -/
def new : SM S := ⟨[], [], 0⟩

/-- `while(buzzdict_get(id2str, &maxsid)) ++maxsid;` (212-213) with a `uint16_t` counter.  After 65536
increments every id has been tested, so running out of `fuel = 65536` rounds is an infinite loop. -/
def skip (m : List (Nat × (S × Bool))) : Nat → Nat → Res Nat
  | 0, _ => .hang
  | fuel + 1, i =>
    if (FMap.get m i).isSome then skip m fuel ((i + 1) % U16) else .ok i

/-- `buzzstrman_register` (191-223). -/
def register (sm : SM S) (str : S) (protect : Bool) : Res (SM S × Nat) :=
  match FMap.get sm.str2id str with
  | some id =>
    if protect then
      match FMap.get sm.id2str id with
      | some (s, _) => .ok ({ sm with id2str := FMap.set sm.id2str id (s, true) }, id)
      | none => .ub
    else .ok (sm, id)
  | none =>
    let id2 := sm.maxsid
    let m1 := (sm.maxsid + 1) % U16
    let m2 := if m1 = 0 then 1 else m1
    match skip sm.id2str U16 m2 with
    | .ok m3 =>
      .ok ({ str2id := FMap.set sm.str2id str id2, id2str := FMap.set sm.id2str id2 (str, protect), maxsid := m3 }, id2)
    | _ => .hang

/-- `buzzstrman_get` (228-233). -/
def get (sm : SM S) (id : Nat) : Option S := (FMap.get sm.id2str id).map (·.1)

/-- Comparison of the id tree (79, 81, 101, 103). -/
def idcmp (a b : Nat) : Int := (a : Int) - b

/-- `buzzstrman_gc_unmark` over the entries of `str2id` (238-258): ids of unprotected strings. -/
def gcClear (sm : SM S) : Tree.T Nat :=
  sm.str2id.foldl (fun t e =>
    match FMap.get sm.id2str e.2 with
    | some (_, true) => t
    | some (_, false) => (Tree.insert idcmp e.2 t).1
    | none => t) .leaf

/-- `buzzstrman_gc_mark` (263-273). -/
def gcMark (sm : SM S) (t : Tree.T Nat) (sid : Nat) : Tree.T Nat :=
  match FMap.get sm.id2str sid with
  | some (_, true) => t
  | some (_, false) => (Tree.remove idcmp t sid).1
  | none => t

/-- `buzzstrman_gc_dispose` (278-287): an unknown id dereferences NULL. -/
def dispose (sm : SM S) (sid : Nat) : Res (SM S) :=
  match FMap.get sm.id2str sid with
  | some (s, _) => .ok { sm with str2id := FMap.del sm.str2id s, id2str := FMap.del sm.id2str sid }
  | none => .ub

/-- The loop of `buzzstrman_gc_prune` (289-295) over the visited ids. -/
def disposeAll (sm : SM S) : List Nat → Res (SM S)
  | [] => .ok sm
  | i :: is => do
    let sm ← dispose sm i
    disposeAll sm is

/-- A whole collection: `gc_clear`, any sequence of `gc_mark`, `gc_prune`. -/
def gc (sm : SM S) (marks : List Nat) : Res (SM S) :=
  disposeAll sm (Tree.toList (marks.foldl (gcMark sm) (gcClear sm)))

/-! ### Lemmas -/

/-- Representation invariant. -/
structure Inv (sm : SM S) : Prop where
  ok1 : FMap.Ok sm.str2id
  ok2 : FMap.Ok sm.id2str
  there : ∀ s i, FMap.get sm.str2id s = some i → ∃ p, FMap.get sm.id2str i = some (s, p)
  back : ∀ i s p, FMap.get sm.id2str i = some (s, p) → FMap.get sm.str2id s = some i
  small : ∀ i, (FMap.get sm.id2str i).isSome → i < U16
  next_small : sm.maxsid < U16
  next_free : FMap.get sm.id2str sm.maxsid = none

theorem new_inv : Inv (new : SM S) := by
  refine ⟨FMap.ok_nil, FMap.ok_nil, ?_, ?_, ?_, ?_, ?_⟩ <;> simp [new]

/-- The search stops at the first free id. -/
theorem skip_ok (m : List (Nat × (S × Bool))) : ∀ (n i j : Nat), i < U16 → j < n →
    FMap.get m ((i + j) % U16) = none →
    ∃ k, k ≤ j ∧ skip m n i = .ok ((i + k) % U16) ∧ FMap.get m ((i + k) % U16) = none
  | 0, i, j, _, hj, _ => by omega
  | n + 1, i, j, hi, hj, h => by
    unfold skip
    split
    · rename_i hs
      have hj0 : j ≠ 0 := by
        intro h0; subst h0
        rw [Nat.add_zero, Nat.mod_eq_of_lt hi] at h
        rw [h] at hs; cases hs
      have hi' : (i + 1) % U16 < U16 := Nat.mod_lt _ (by simp [U16])
      have e : ∀ k, ((i + 1) % U16 + k) % U16 = (i + (k + 1)) % U16 := by
        intro k; simp only [U16]; omega
      obtain ⟨k, h1, h2, h3⟩ := skip_ok m n ((i + 1) % U16) (j - 1) hi' (by omega)
        (by rw [e, Nat.sub_add_cancel (by omega)]; exact h)
      refine ⟨k + 1, by omega, ?_, ?_⟩
      · rw [h2, e]
      · rw [← e]; exact h3
    · rename_i hs
      refine ⟨0, by omega, ?_, ?_⟩
      · rw [Nat.add_zero, Nat.mod_eq_of_lt hi]
      · rw [Nat.add_zero, Nat.mod_eq_of_lt hi]
        cases hg : FMap.get m i with
        | none => rfl
        | some v => rw [hg] at hs; simp at hs

/-- Pigeonhole: with at most 65533 live ids there is a free id that is neither `0` nor a given `id2`. -/
theorem exists_free {m : List (Nat × (S × Bool))} (hn : m.length ≤ 65533) (id2 : Nat) :
    ∃ x, x < U16 ∧ x ≠ 0 ∧ x ≠ id2 ∧ FMap.get m x = none := by
  by_contra hcon
  have hall : ∀ x, x < U16 → x ≠ 0 → x ≠ id2 → x ∈ m.map (·.1) := by
    intro x h1 h2 h3
    by_contra hx
    exact hcon ⟨x, h1, h2, h3, (FMap.get_eq_none_iff m x).mpr hx⟩
  have hsub : List.range U16 ⊆ 0 :: id2 :: m.map (·.1) := by
    intro x hx
    rw [List.mem_range] at hx
    by_cases h1 : x = 0
    · simp [h1]
    · by_cases h2 : x = id2
      · simp [h2]
      · exact List.mem_cons_of_mem _ (List.mem_cons_of_mem _ (hall x hx h1 h2))
  have := List.subperm_of_subset (List.nodup_range (n := U16)) hsub
  have hl := this.length_le
  simp only [List.length_range, List.length_cons, List.length_map, U16] at hl
  omega

theorem register_old {sm : SM S} (h : Inv sm) {str : S} {id : Nat} (hs : FMap.get sm.str2id str = some id)
    (protect : Bool) :
    ∃ sm', register sm str protect = .ok (sm', id) ∧ Inv sm' ∧
      (∀ i, get sm' i = get sm i) ∧ (∀ s, FMap.get sm'.str2id s = FMap.get sm.str2id s) ∧
      (∀ i s p, FMap.get sm'.id2str i = some (s, p) ↔
        (∃ p0, FMap.get sm.id2str i = some (s, p0) ∧ p = (p0 || (protect && i == id)))) ∧
      sm'.id2str.length = sm.id2str.length := by
  obtain ⟨p0, hp⟩ := h.there _ _ hs
  unfold register
  rw [hs]
  cases protect with
  | false =>
    refine ⟨sm, rfl, h, fun _ => rfl, fun _ => rfl, ?_, rfl⟩
    intro i s p
    simp
  | true =>
    simp only [hp, if_true]
    have hg : ∀ i, FMap.get (FMap.set sm.id2str id (str, true)) i =
        if i = id then some (str, true) else FMap.get sm.id2str i := fun i => FMap.get_set _ _ _ _
    refine ⟨_, rfl, ⟨h.ok1, h.ok2.set _ _, ?_, ?_, ?_, h.next_small, ?_⟩, ?_, fun _ => rfl, ?_,
      FMap.length_set_old h.ok2 hp⟩
    · intro s i hsi
      obtain ⟨p, hp'⟩ := h.there s i hsi
      simp only [hg]
      by_cases hi : i = id
      · subst hi
        rw [hp] at hp'; cases hp'
        exact ⟨true, by simp⟩
      · exact ⟨p, by simp [hi, hp']⟩
    · intro i s p hi
      simp only [hg] at hi
      split at hi
      · rename_i he; cases hi; rw [he]; exact hs
      · exact h.back i s p hi
    · intro i hi
      simp only [hg] at hi
      split at hi
      · rename_i he; rw [he]; exact h.small id (by rw [hp]; rfl)
      · exact h.small i hi
    · simp only [hg]
      rw [if_neg]
      · exact h.next_free
      · intro he; have := h.next_free; rw [he, hp] at this; cases this
    · intro i
      unfold get
      simp only [hg]
      split
      · rename_i he; rw [he, hp]; rfl
      · rfl
    · intro i s p
      simp only [hg]
      by_cases hi : i = id
      · subst hi
        simp only [if_true, hp]
        constructor
        · intro hh; cases hh; exact ⟨p0, rfl, by simp⟩
        · rintro ⟨q, hq, rfl⟩
          cases hq; simp
      · rw [if_neg hi]
        have hb : (i == id) = false := by simpa using hi
        rw [hb]
        constructor
        · intro hh; exact ⟨p, hh, by simp⟩
        · rintro ⟨q, hq, rfl⟩; simpa using hq

theorem register_new {sm : SM S} (h : Inv sm) {str : S} (hs : FMap.get sm.str2id str = none)
    (protect : Bool) (hl : sm.id2str.length ≤ 65533) :
    ∃ sm' id, register sm str protect = .ok (sm', id) ∧ Inv sm' ∧ FMap.get sm.id2str id = none ∧
      (∀ i, FMap.get sm'.id2str i = if i = id then some (str, protect) else FMap.get sm.id2str i) ∧
      (∀ s, FMap.get sm'.str2id s = if s = str then some id else FMap.get sm.str2id s) ∧
      sm'.id2str.length = sm.id2str.length + 1 := by
  obtain ⟨x, hx1, hx2, hx3, hx4⟩ := exists_free hl sm.maxsid
  have hn := h.next_small
  -- the starting point of the search
  obtain ⟨m2, hm2, hm2e⟩ : ∃ m2, m2 < U16 ∧
      m2 = if (sm.maxsid + 1) % U16 = 0 then 1 else (sm.maxsid + 1) % U16 := by
    refine ⟨_, ?_, rfl⟩
    split
    · simp [U16]
    · exact Nat.mod_lt _ (by simp [U16])
  -- distance from the starting point to the free id, going up and around
  have hj : ∃ j, j < U16 ∧ (m2 + j) % U16 = x ∧ (∀ k, k ≤ j → (m2 + k) % U16 ≠ sm.maxsid) := by
    by_cases hz : (sm.maxsid + 1) % U16 = 0
    · rw [if_pos hz] at hm2e
      subst hm2e
      simp only [U16] at *
      exact ⟨x - 1, by omega, by omega, by intro k hk; omega⟩
    · rw [if_neg hz] at hm2e
      have : m2 = sm.maxsid + 1 := by rw [hm2e]; simp only [U16] at *; omega
      subst this
      simp only [U16] at *
      by_cases hgt : sm.maxsid < x
      · exact ⟨x - (sm.maxsid + 1), by omega, by omega, by intro k hk; omega⟩
      · exact ⟨x + 65536 - (sm.maxsid + 1), by omega, by omega, by intro k hk; omega⟩
  obtain ⟨j, hj1, hj2, hj3⟩ := hj
  obtain ⟨k, hk1, hk2, hk3⟩ := skip_ok sm.id2str U16 m2 j hm2 hj1 (by rw [hj2]; exact hx4)
  unfold register
  rw [hs]
  simp only [← hm2e, hk2]
  have hg : ∀ i, FMap.get (FMap.set sm.id2str sm.maxsid (str, protect)) i =
      if i = sm.maxsid then some (str, protect) else FMap.get sm.id2str i := fun i => FMap.get_set _ _ _ _
  have hg1 : ∀ s, FMap.get (FMap.set sm.str2id str sm.maxsid) s =
      if s = str then some sm.maxsid else FMap.get sm.str2id s := fun s => FMap.get_set _ _ _ _
  refine ⟨_, _, rfl, ⟨h.ok1.set _ _, h.ok2.set _ _, ?_, ?_, ?_, Nat.mod_lt _ (by simp [U16]), ?_⟩,
    h.next_free, hg, hg1, FMap.length_set_new h.next_free⟩
  · intro s i hsi
    simp only [hg1] at hsi
    simp only [hg]
    by_cases he : s = str
    · rw [if_pos he] at hsi
      cases hsi
      exact ⟨protect, by simp [he]⟩
    · rw [if_neg he] at hsi
      obtain ⟨p, hp⟩ := h.there s i hsi
      refine ⟨p, ?_⟩
      rw [if_neg]
      · exact hp
      · intro hi; rw [hi, h.next_free] at hp; cases hp
  · intro i s p hi
    simp only [hg] at hi
    simp only [hg1]
    split at hi
    · rename_i he; cases hi; simp [he]
    · have := h.back i s p hi
      rw [if_neg]
      · exact this
      · intro hss; rw [hss, hs] at this; cases this
  · intro i hi
    simp only [hg] at hi
    split at hi
    · rename_i he; rw [he]; exact hn
    · exact h.small i hi
  · simp only [hg]
    rw [if_neg (hj3 k hk1)]
    exact hk3

/-! #### Collection -/

theorem idcmp_lawful : Tree.Lawful idcmp :=
  ⟨by intro a b; simp only [idcmp]; omega, by intro a b c; simp only [idcmp]; omega,
   by intro a b c; simp only [idcmp]; omega⟩

theorem idcmp_zero (a b : Nat) : idcmp a b = 0 ↔ a = b := by
  simp only [idcmp]; omega

theorem insert_mem {t : Tree.T Nat} (h : Tree.BST idcmp t) (x y : Nat) :
    y ∈ Tree.toList (Tree.insert idcmp x t).1 ↔ y = x ∨ y ∈ Tree.toList t := by
  obtain ⟨_, _, h3⟩ := Tree.insert_spec idcmp_lawful x t h
  rw [h3.mem_iff]
  split
  · rename_i hc
    rw [List.any_eq_true] at hc
    obtain ⟨z, hz, he⟩ := hc
    have : x = z := (idcmp_zero x z).mp (by simpa using he)
    subst this
    constructor
    · intro h; exact Or.inr h
    · rintro (h | h)
      · rw [h]; exact hz
      · exact h
  · simp

theorem remove_mem {t : Tree.T Nat} (h : Tree.BST idcmp t) (x y : Nat) :
    y ∈ Tree.toList (Tree.remove idcmp t x).1 ↔ y ∈ Tree.toList t ∧ y ≠ x := by
  obtain ⟨_, _, h3⟩ := Tree.remove_spec idcmp_lawful t x h
  rw [h3.mem_iff, List.mem_filter]
  have : (idcmp x y != 0) = true ↔ y ≠ x := by
    rw [bne_iff_ne, Ne, idcmp_zero]; exact ⟨fun h h' => h h'.symm, fun h h' => h h'.symm⟩
  rw [this]

theorem tree_nodup {t : Tree.T Nat} (h : Tree.BST idcmp t) : (Tree.toList t).Nodup := by
  have := Tree.pairwise_ne idcmp_lawful t h
  exact this.imp (fun {a b} hab he => hab ((idcmp_zero a b).mpr he))

theorem gcClear_spec {sm : SM S} (h : Inv sm) :
    Tree.BST idcmp (gcClear sm) ∧
      ∀ i, i ∈ Tree.toList (gcClear sm) ↔ ∃ s, FMap.get sm.id2str i = some (s, false) := by
  have gen : ∀ (l : List (S × Nat)) (t : Tree.T Nat), Tree.BST idcmp t →
      let t' := l.foldl (fun t e =>
        match FMap.get sm.id2str e.2 with
        | some (_, true) => t
        | some (_, false) => (Tree.insert idcmp e.2 t).1
        | none => t) t
      Tree.BST idcmp t' ∧ ∀ i, i ∈ Tree.toList t' ↔
        (i ∈ Tree.toList t ∨ ((∃ s, FMap.get sm.id2str i = some (s, false)) ∧ i ∈ l.map (·.2))) := by
    intro l
    induction l with
    | nil => intro t ht; simp [ht]
    | cons e l ih =>
      intro t ht
      simp only [List.foldl_cons]
      cases hg : FMap.get sm.id2str e.2 with
      | none =>
        obtain ⟨h1, h2⟩ := ih t ht
        refine ⟨h1, fun i => ?_⟩
        rw [h2 i]
        simp only [List.map_cons, List.mem_cons]
        constructor
        · rintro (h | ⟨h, h'⟩)
          · exact Or.inl h
          · exact Or.inr ⟨h, Or.inr h'⟩
        · rintro (h | ⟨h, h' | h'⟩)
          · exact Or.inl h
          · obtain ⟨s, hs⟩ := h; rw [h', hg] at hs; cases hs
          · exact Or.inr ⟨h, h'⟩
      | some v =>
        obtain ⟨s, b⟩ := v
        cases b with
        | true =>
          obtain ⟨h1, h2⟩ := ih t ht
          refine ⟨h1, fun i => ?_⟩
          rw [h2 i]
          simp only [List.map_cons, List.mem_cons]
          constructor
          · rintro (h | ⟨h, h'⟩)
            · exact Or.inl h
            · exact Or.inr ⟨h, Or.inr h'⟩
          · rintro (h | ⟨h, h' | h'⟩)
            · exact Or.inl h
            · obtain ⟨s, hs⟩ := h; rw [h', hg] at hs; cases hs
            · exact Or.inr ⟨h, h'⟩
        | false =>
          obtain ⟨h1, h2⟩ := ih (Tree.insert idcmp e.2 t).1 (Tree.insert_spec idcmp_lawful e.2 t ht).1
          refine ⟨h1, fun i => ?_⟩
          rw [h2 i, insert_mem ht]
          simp only [List.map_cons, List.mem_cons]
          constructor
          · rintro ((h | h) | ⟨h, h'⟩)
            · exact Or.inr ⟨⟨s, by rw [h]; exact hg⟩, Or.inl h⟩
            · exact Or.inl h
            · exact Or.inr ⟨h, Or.inr h'⟩
          · rintro (h | ⟨h, h' | h'⟩)
            · exact Or.inl (Or.inr h)
            · exact Or.inl (Or.inl h')
            · exact Or.inr ⟨h, h'⟩
  obtain ⟨h1, h2⟩ := gen sm.str2id .leaf (by simp [Tree.BST])
  refine ⟨h1, fun i => ?_⟩
  have := h2 i
  rw [show gcClear sm = sm.str2id.foldl _ .leaf from rfl, this]
  simp only [Tree.toList, List.not_mem_nil, false_or]
  constructor
  · exact fun h => h.1
  · intro hs
    refine ⟨hs, ?_⟩
    obtain ⟨s, hs⟩ := hs
    exact List.mem_map.mpr ⟨(s, i), FMap.mem_of_get (h.back i s false hs), rfl⟩

theorem marks_spec {sm : SM S} : ∀ (marks : List Nat) (t : Tree.T Nat), Tree.BST idcmp t →
    (∀ i ∈ Tree.toList t, ∃ s, FMap.get sm.id2str i = some (s, false)) →
    Tree.BST idcmp (marks.foldl (gcMark sm) t) ∧
      ∀ i, i ∈ Tree.toList (marks.foldl (gcMark sm) t) ↔ i ∈ Tree.toList t ∧ i ∉ marks
  | [], t, h, _ => by simp [h]
  | m :: ms, t, h, hu => by
    simp only [List.foldl_cons]
    by_cases hm : m ∈ Tree.toList t
    · obtain ⟨s, hs⟩ := hu m hm
      have he : gcMark sm t m = (Tree.remove idcmp t m).1 := by simp [gcMark, hs]
      rw [he]
      have hb := (Tree.remove_spec idcmp_lawful t m h).1
      obtain ⟨h1, h2⟩ := marks_spec ms (Tree.remove idcmp t m).1 hb
        (fun i hi => hu i ((remove_mem h m i).mp hi).1)
      refine ⟨h1, fun i => ?_⟩
      rw [h2 i, remove_mem h]
      simp only [List.mem_cons, not_or]
      tauto
    · have he : ∀ i, i ∈ Tree.toList (gcMark sm t m) ↔ i ∈ Tree.toList t := by
        intro i
        unfold gcMark
        split
        · rfl
        · rw [remove_mem h]
          constructor
          · exact fun h => h.1
          · intro hi; exact ⟨hi, fun he => hm (he ▸ hi)⟩
        · rfl
      have hb : Tree.BST idcmp (gcMark sm t m) := by
        unfold gcMark
        split
        · exact h
        · exact (Tree.remove_spec idcmp_lawful t m h).1
        · exact h
      obtain ⟨h1, h2⟩ := marks_spec ms (gcMark sm t m) hb (fun i hi => hu i ((he i).mp hi))
      refine ⟨h1, fun i => ?_⟩
      rw [h2 i, he i]
      simp only [List.mem_cons, not_or]
      constructor
      · rintro ⟨a, b⟩; exact ⟨a, fun h => hm (h ▸ a), b⟩
      · rintro ⟨a, _, b⟩; exact ⟨a, b⟩

/-- Invariant of the pruning loop: like `Inv` but the counter may point anywhere. -/
theorem disposeAll_spec : ∀ (is : List Nat) (sm : SM S), Inv sm → is.Nodup →
    (∀ i ∈ is, (FMap.get sm.id2str i).isSome) →
    ∃ sm', disposeAll sm is = .ok sm' ∧ Inv sm' ∧
      (∀ i, FMap.get sm'.id2str i = if i ∈ is then none else FMap.get sm.id2str i) ∧
      sm'.id2str.length + is.length = sm.id2str.length ∧ sm'.maxsid = sm.maxsid
  | [], sm, h, _, _ => ⟨sm, rfl, h, by simp, by simp, rfl⟩
  | i :: is, sm, h, hnd, hin => by
    rw [List.nodup_cons] at hnd
    have hi := hin i (by simp)
    rw [Option.isSome_iff_exists] at hi
    obtain ⟨⟨s, p⟩, hi⟩ := hi
    have hsi := h.back i s p hi
    have hd : dispose sm i = .ok { sm with str2id := FMap.del sm.str2id s, id2str := FMap.del sm.id2str i } := by
      simp [dispose, hi]
    have hinv : Inv { sm with str2id := FMap.del sm.str2id s, id2str := FMap.del sm.id2str i } := by
      refine ⟨h.ok1.del _, h.ok2.del _, ?_, ?_, ?_, h.next_small, ?_⟩
      · intro s' j hj
        simp only [FMap.get_del] at hj ⊢
        split at hj
        · cases hj
        · rename_i hne
          obtain ⟨q, hq⟩ := h.there s' j hj
          refine ⟨q, ?_⟩
          rw [if_neg]
          · exact hq
          · intro hji; rw [hji, hi] at hq; cases hq; exact hne rfl
      · intro j s' q hj
        simp only [FMap.get_del] at hj ⊢
        split at hj
        · cases hj
        · rename_i hne
          have := h.back j s' q hj
          rw [if_neg]
          · exact this
          · intro hss; rw [hss, hsi] at this; cases this; exact hne rfl
      · intro j hj
        simp only [FMap.get_del] at hj
        split at hj
        · cases hj
        · exact h.small j hj
      · simp only [FMap.get_del]
        split
        · rfl
        · exact h.next_free
    obtain ⟨sm', h1, h2, h3, h4, h5⟩ := disposeAll_spec is _ hinv hnd.2 (by
      intro j hj
      simp only [FMap.get_del]
      rw [if_neg]
      · exact hin j (by simp [hj])
      · intro he; rw [he] at hj; exact hnd.1 hj)
    refine ⟨sm', ?_, h2, ?_, ?_, h5⟩
    · simp only [disposeAll, hd, Res.ok_bind]; exact h1
    · intro j
      rw [h3 j]
      simp only [FMap.get_del, List.mem_cons]
      by_cases h6 : j ∈ is
      · simp [h6]
      · by_cases h7 : j = i
        · simp [h7]
        · simp [h6, h7]
    · have := FMap.length_del h.ok2 hi
      simp only [List.length_cons]
      simp only at h4
      omega

theorem gc_spec {sm : SM S} (h : Inv sm) (marks : List Nat) :
    ∃ sm', gc sm marks = .ok sm' ∧ Inv sm' ∧
      (∀ i s p, FMap.get sm'.id2str i = some (s, p) ↔
        FMap.get sm.id2str i = some (s, p) ∧ (p = true ∨ i ∈ marks)) ∧
      sm'.id2str.length ≤ sm.id2str.length := by
  obtain ⟨hb, hc⟩ := gcClear_spec h
  obtain ⟨hb2, hm⟩ := marks_spec marks (gcClear sm) hb (fun i hi => (hc i).mp hi)
  obtain ⟨sm', h1, h2, h3, h4, _⟩ := disposeAll_spec (Tree.toList (marks.foldl (gcMark sm) (gcClear sm))) sm h
    (tree_nodup hb2) (by
      intro i hi
      obtain ⟨s, hs⟩ := (hc i).mp ((hm i).mp hi).1
      rw [hs]; rfl)
  refine ⟨sm', h1, h2, ?_, by omega⟩
  intro i s p
  rw [h3 i]
  by_cases hi : i ∈ Tree.toList (marks.foldl (gcMark sm) (gcClear sm))
  · rw [if_pos hi]
    obtain ⟨ha, hb⟩ := (hm i).mp hi
    obtain ⟨s', hs'⟩ := (hc i).mp ha
    constructor
    · intro hh; cases hh
    · rintro ⟨hh, hp | hp⟩
      · rw [hs'] at hh; cases hh; cases hp
      · exact absurd hp hb
  · rw [if_neg hi]
    constructor
    · intro hh
      refine ⟨hh, ?_⟩
      cases p with
      | true => exact Or.inl rfl
      | false =>
        right
        by_contra hnm
        exact hi ((hm i).mpr ⟨(hc i).mpr ⟨s, hh⟩, hnm⟩)
    · exact fun hh => hh.1

end Buzz.Strman
