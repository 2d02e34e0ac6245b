import Verif.Basic


/-
Model of the quicksort of /repo/src/buzz/buzzdarray.c 227-267.

The array is the list of its elements (refinement to the raw buffer is in `Verif/DarrayLemmas.lean`);
an access outside the list is `Res.ub`.  Simplification: when the two arguments of `SWAP` are the same
slot the C code calls `memcpy` with identical source and destination, which the C standard leaves
undefined but every libc executes as a no-op; here it is a no-op.
-/
namespace Buzz.Sort

variable {α : Type}

/-- `SWAP` (buzzdarray.c 230). -/
def swap (l : List α) (i j : Nat) : Res (List α) :=
  match l[i]?, l[j]? with
  | some a, some b => .ok ((l.set i b).set j a)
  | _, _ => .ub

/-- The loop of `buzzdarray_part` (240-246); `n` is the number of remaining iterations `hi - k`. -/
def partLoop (cmp : α → α → Int) (hi : Nat) : (n k pt : Nat) → List α → Res (List α × Nat)
  | 0, _, pt, l => .ok (l, pt)
  | n + 1, k, pt, l =>
    match l[k]?, l[hi]? with
    | some x, some y =>
      if cmp x y < 0 then
        if k ≠ pt then
          match swap l k pt with
          | .ok l' => partLoop cmp hi n (k + 1) (pt + 1) l'
          | _ => .ub
        else partLoop cmp hi n (k + 1) (pt + 1) l
      else partLoop cmp hi n (k + 1) pt l
    | _, _ => .ub

/-- `buzzdarray_part` (232-251). -/
def part (cmp : α → α → Int) (l : List α) (lo hi : Nat) : Res (List α × Nat) :=
  match partLoop cmp hi (hi - lo) lo lo l with
  | .ok (l', pt) =>
    match swap l' pt hi with
    | .ok l'' => .ok (l'', pt)
    | _ => .ub
  | _ => .ub

theorem partLoop_bounds {cmp : α → α → Int} {hi : Nat} :
    ∀ {n k pt : Nat} {l l' : List α} {p : Nat}, partLoop cmp hi n k pt l = .ok (l', p) →
      pt ≤ k → pt ≤ p ∧ p ≤ k + n
  | 0, k, pt, l, l', p, h, hk => by
    simp [partLoop] at h; omega
  | n + 1, k, pt, l, l', p, h, hk => by
    unfold partLoop at h
    split at h
    · split at h
      · split at h
        · split at h
          · have := partLoop_bounds h (by omega); omega
          · cases h
        · have := partLoop_bounds h (by omega); omega
      · have := partLoop_bounds h (by omega); omega
    · cases h

theorem part_bounds {cmp : α → α → Int} {l l' : List α} {lo hi p : Nat}
    (h : part cmp l lo hi = .ok (l', p)) (hle : lo ≤ hi) : lo ≤ p ∧ p ≤ hi := by
  unfold part at h
  split at h
  · rename_i hl
    have := partLoop_bounds hl (Nat.le_refl _)
    split at h
    · cases h; omega
    · cases h
  · cases h

/-- `buzzdarray_qsort` (253-262).  `hi` may be -1. -/
def qsort (cmp : α → α → Int) (l : List α) (lo : Nat) (hi : Int) : Res (List α) :=
  if hlt : (lo : Int) < hi then
    match hp : part cmp l lo hi.toNat with
    | .ok (l1, p) =>
      match qsort cmp l1 lo ((p : Int) - 1) with
      | .ok l2 => qsort cmp l2 (p + 1) hi
      | r => r
    | _ => .ub
  else .ok l
termination_by (hi - lo + 1).toNat
decreasing_by
  all_goals
    have := part_bounds hp (by omega)
    omega

/-- `buzzdarray_sort` (264-267). -/
def sort (cmp : α → α → Int) (l : List α) : Res (List α) := qsort cmp l 0 ((l.length : Int) - 1)

/-! ### Correctness lemmas -/

theorem swap_ok {l : List α} {i j : Nat} (hi : i < l.length) (hj : j < l.length) :
    swap l i j = .ok ((l.set i l[j]).set j l[i]) := by
  simp [swap, hi, hj]

/-- `l'` is `l` with the elements of positions `lo..hi` permuted among themselves. -/
structure Seg (lo hi : Nat) (l l' : List α) : Prop where
  len : l'.length = l.length
  out : ∀ i, (i < lo ∨ hi < i) → l'[i]? = l[i]?
  inside : ∀ P : α → Prop, (∀ i x, lo ≤ i → i ≤ hi → l[i]? = some x → P x) →
    ∀ i x, lo ≤ i → i ≤ hi → l'[i]? = some x → P x
  perm : l'.Perm l

theorem Seg.refl (lo hi : Nat) (l : List α) : Seg lo hi l l :=
  ⟨rfl, fun _ _ => rfl, fun _ h => h, List.Perm.refl _⟩

theorem Seg.trans {lo hi : Nat} {a b c : List α} (h1 : Seg lo hi a b) (h2 : Seg lo hi b c) :
    Seg lo hi a c :=
  ⟨h2.len.trans h1.len, fun i h => (h2.out i h).trans (h1.out i h),
    fun P h => h2.inside P (h1.inside P h), h2.perm.trans h1.perm⟩

theorem Seg.mono {lo hi lo' hi' : Nat} {a b : List α} (h : Seg lo hi a b) (h1 : lo' ≤ lo) (h2 : hi ≤ hi') :
    Seg lo' hi' a b := by
  refine ⟨h.len, fun i hi' => h.out i (by omega), fun P hP i x hl hh hx => ?_, h.perm⟩
  by_cases hin : lo ≤ i ∧ i ≤ hi
  · exact h.inside P (fun j y hj1 hj2 => hP j y (by omega) (by omega)) i x hin.1 hin.2 hx
  · rw [h.out i (by omega)] at hx
    exact hP i x hl hh hx

theorem swap_getElem? {l : List α} {i j : Nat} (hi : i < l.length) (hj : j < l.length) (k : Nat) :
    ((l.set i l[j]).set j l[i])[k]? = if k = j then l[i]? else if k = i then l[j]? else l[k]? := by
  simp only [List.getElem?_set, List.length_set]
  by_cases h1 : j = k
  · subst h1; simp [hi, hj]
  · by_cases h2 : i = k
    · subst h2
      simp [h1, hi, hj, Ne.symm h1]
    · simp [h1, h2, Ne.symm h1, Ne.symm h2]

theorem seg_swap {l : List α} {lo hi i j : Nat} (hi' : i < l.length) (hj : j < l.length)
    (h1 : lo ≤ i) (h2 : i ≤ hi) (h3 : lo ≤ j) (h4 : j ≤ hi) :
    Seg lo hi l ((l.set i l[j]).set j l[i]) := by
  refine ⟨by simp, fun k hk => ?_, fun P hP k x hk1 hk2 hx => ?_, ?_⟩
  · rw [swap_getElem? hi' hj]
    rw [if_neg (by omega), if_neg (by omega)]
  · rw [swap_getElem? hi' hj] at hx
    split at hx
    · exact hP i x h1 h2 hx
    · split at hx
      · exact hP j x h3 h4 hx
      · exact hP k x hk1 hk2 hx
  · exact List.set_set_perm hi' hj

/-- Loop invariant of the partition. -/
theorem partLoop_spec (cmp : α → α → Int) (hi lo : Nat) (y : α) :
    ∀ (n k pt : Nat) (l : List α), k + n = hi → lo ≤ pt → pt ≤ k → hi < l.length → l[hi]? = some y →
      (∀ i x, lo ≤ i → i < pt → l[i]? = some x → cmp x y < 0) →
      (∀ i x, pt ≤ i → i < k → l[i]? = some x → ¬ cmp x y < 0) →
      ∃ l' p, partLoop cmp hi n k pt l = .ok (l', p) ∧ pt ≤ p ∧ p ≤ hi ∧ Seg lo hi l l' ∧
        l'[hi]? = some y ∧
        (∀ i x, lo ≤ i → i < p → l'[i]? = some x → cmp x y < 0) ∧
        (∀ i x, p ≤ i → i < hi → l'[i]? = some x → ¬ cmp x y < 0)
  | 0, k, pt, l, hk, h1, h2, h3, h4, h5, h6 => by
    refine ⟨l, pt, rfl, Nat.le_refl _, by omega, Seg.refl _ _ _, h4, h5, ?_⟩
    intro i x a b c
    exact h6 i x a (by omega) c
  | n + 1, k, pt, l, hk, h1, h2, h3, h4, h5, h6 => by
    have hkl : k < l.length := by omega
    have hptl : pt < l.length := by omega
    have hlk : l[k]? = some l[k] := by simp [hkl]
    unfold partLoop
    simp only [hlk, h4]
    split
    · rename_i hc
      split
      · rename_i hne
        rw [swap_ok hkl hptl]
        simp only
        have hseg : Seg lo hi l ((l.set k l[pt]).set pt l[k]) :=
          seg_swap hkl hptl (by omega) (by omega) (by omega) (by omega)
        obtain ⟨l', p, e1, e2, e3, e4, e5, e6, e7⟩ :=
          partLoop_spec cmp hi lo y n (k + 1) (pt + 1) ((l.set k l[pt]).set pt l[k]) (by omega) (by omega)
            (by omega) (by simpa using h3)
            (by rw [swap_getElem? hkl hptl, if_neg (by omega), if_neg (by omega)]; exact h4)
            (by
              intro i x a b c
              rw [swap_getElem? hkl hptl] at c
              by_cases hi1 : i = pt
              · rw [if_pos hi1, hlk] at c; cases c; exact hc
              · rw [if_neg hi1, if_neg (by omega)] at c
                exact h5 i x a (by omega) c)
            (by
              intro i x a b c
              rw [swap_getElem? hkl hptl, if_neg (by omega)] at c
              by_cases hi1 : i = k
              · rw [if_pos hi1] at c
                exact h6 pt x (Nat.le_refl _) (by omega) c
              · rw [if_neg hi1] at c
                exact h6 i x (by omega) (by omega) c)
        exact ⟨l', p, e1, by omega, e3, hseg.trans e4, e5, e6, e7⟩
      · rename_i hne
        have hkp : k = pt := by omega
        obtain ⟨l', p, e1, e2, e3, e4, e5, e6, e7⟩ :=
          partLoop_spec cmp hi lo y n (k + 1) (pt + 1) l (by omega) (by omega) (by omega) h3 h4
            (by
              intro i x a b c
              by_cases hi1 : i = pt
              · rw [hi1, ← hkp, hlk] at c; cases c; exact hc
              · exact h5 i x a (by omega) c)
            (by intro i x a b c; omega)
        exact ⟨l', p, e1, by omega, e3, e4, e5, e6, e7⟩
    · rename_i hc
      obtain ⟨l', p, e1, e2, e3, e4, e5, e6, e7⟩ :=
        partLoop_spec cmp hi lo y n (k + 1) pt l (by omega) (by omega) (by omega) h3 h4 h5
          (by
            intro i x a b c
            by_cases hi1 : i = k
            · rw [hi1, hlk] at c; cases c; exact hc
            · exact h6 i x a (by omega) c)
      exact ⟨l', p, e1, by omega, e3, e4, e5, e6, e7⟩

theorem part_spec (cmp : α → α → Int) (l : List α) (lo hi : Nat) (hlo : lo ≤ hi) (hh : hi < l.length) :
    ∃ l' p y, part cmp l lo hi = .ok (l', p) ∧ lo ≤ p ∧ p ≤ hi ∧ Seg lo hi l l' ∧ l'[p]? = some y ∧
      (∀ i x, lo ≤ i → i < p → l'[i]? = some x → cmp x y < 0) ∧
      (∀ i x, p < i → i ≤ hi → l'[i]? = some x → ¬ cmp x y < 0) := by
  have hy : l[hi]? = some l[hi] := by simp [hh]
  obtain ⟨l1, p, e1, e2, e3, e4, e5, e6, e7⟩ :=
    partLoop_spec cmp hi lo l[hi] (hi - lo) lo lo l (by omega) (Nat.le_refl _) (Nat.le_refl _) hh hy
      (by intro i x a b c; omega) (by intro i x a b c; omega)
  have hl1 : l1.length = l.length := e4.len
  have hp1 : p < l1.length := by omega
  have hh1 : hi < l1.length := by omega
  refine ⟨(l1.set p l1[hi]).set hi l1[p], p, l[hi], ?_, e2, e3, ?_, ?_, ?_, ?_⟩
  · unfold part
    rw [e1]; simp only [swap_ok hp1 hh1]
  · exact e4.trans (seg_swap hp1 hh1 e2 e3 hlo (Nat.le_refl _))
  · rw [swap_getElem? hp1 hh1]
    split
    · rename_i he; rw [he]; exact e5
    · simp only [if_true]; exact e5
  · intro i x a b c
    rw [swap_getElem? hp1 hh1, if_neg (by omega), if_neg (by omega)] at c
    exact e6 i x a b c
  · intro i x a b c
    rw [swap_getElem? hp1 hh1] at c
    split at c
    · exact e7 p x (Nat.le_refl _) (by omega) c
    · rw [if_neg (by omega)] at c
      exact e7 i x (by omega) (by omega) c

/-- Positions `lo..hi` of `l` are in non-decreasing order. -/
def SortedSeg (cmp : α → α → Int) (l : List α) (lo : Nat) (hi : Int) : Prop :=
  ∀ i j x y, lo ≤ i → i < j → (j : Int) ≤ hi → l[i]? = some x → l[j]? = some y → cmp x y ≤ 0

theorem qsort_spec (cmp : α → α → Int) (htot : ∀ a b, cmp a b < 0 ∨ cmp b a ≤ 0)
    (htr : ∀ a b c, cmp a b ≤ 0 → cmp b c ≤ 0 → cmp a c ≤ 0) :
    ∀ (m : Nat) (l : List α) (lo : Nat) (hi : Int), (hi - lo + 1).toNat ≤ m → hi < l.length →
      ∃ l', qsort cmp l lo hi = .ok l' ∧ (∀ h : Nat, hi ≤ h → Seg lo h l l') ∧
        SortedSeg cmp l' lo hi := by
  intro m
  induction m with
  | zero =>
    intro l lo hi hm hh
    rw [qsort, dif_neg (by omega)]
    exact ⟨l, rfl, fun _ _ => Seg.refl _ _ _, by intro i j x y; intros; omega⟩
  | succ m ih =>
    intro l lo hi hm hh
    by_cases hlt : (lo : Int) < hi
    · obtain ⟨l1, p, y, e1, e2, e3, e4, e5, e6, e7⟩ :=
        part_spec cmp l lo hi.toNat (by omega) (by omega)
      have hlen1 := e4.len
      obtain ⟨l2, f1, f2, f3⟩ := ih l1 lo ((p : Int) - 1) (by omega) (by omega)
      have hlen2 := (f2 p (by omega)).len
      obtain ⟨l3, g1, g2, g3⟩ := ih l2 (p + 1) hi (by omega) (by omega)
      refine ⟨l3, ?_, ?_, ?_⟩
      · rw [qsort, dif_pos hlt]
        split
        · rename_i l1' p' he
          rw [e1] at he; cases he
          rw [f1]; exact g1
        · rename_i hne; exact absurd e1 (hne _ _)
      · intro h hle
        refine (e4.mono (Nat.le_refl _) (by omega)).trans (((f2 (p - 1) (by omega)).mono (Nat.le_refl _) (by omega)).trans ((g2 h hle).mono (by omega) (Nat.le_refl _)))
      · -- ordering
        have hg := g2 hi.toNat (by omega)
        -- below p, elements of l3 are those of l2, a rearrangement of l1's
        have below : ∀ i x, lo ≤ i → i < p → l3[i]? = some x → cmp x y ≤ 0 := by
          intro i x a b c
          rw [hg.out i (by omega)] at c
          have := (f2 (p - 1) (by omega)).inside (fun x => cmp x y < 0)
            (fun j z h1 h2 h3 => e6 j z h1 (by omega) h3) i x a (by omega) c
          omega
        have above : ∀ i x, p < i → (i : Int) ≤ hi → l3[i]? = some x → cmp y x ≤ 0 := by
          intro i x a b c
          have hx := hg.inside (fun x => cmp y x ≤ 0) (fun j z h1 h2 h3 => by
            have h3' := h3
            rw [(f2 p (by omega)).out j (by omega)] at h3'
            have := e7 j z (by omega) (by omega) h3'
            rcases htot z y with h | h
            · exact absurd h this
            · exact h) i x (by omega) (by omega) c
          exact hx
        have atp : l3[p]? = some y := by
          rw [hg.out p (by omega)]
          by_cases hp0 : p = 0
          · -- the left segment is empty, so nothing moved
            have h20 : l2 = l1 := by
              rw [qsort, dif_neg (by omega)] at f1
              cases f1; rfl
            rw [h20]; exact e5
          · rw [(f2 (p - 1) (by omega)).out p (by omega)]; exact e5
        intro i j x z h1 h2 h3 hx hz
        rcases Nat.lt_trichotomy j p with hj | hj | hj
        · rw [hg.out i (by omega)] at hx
          rw [hg.out j (by omega)] at hz
          exact f3 i j x z h1 h2 (by omega) hx hz
        · subst hj
          rw [atp] at hz; cases hz
          exact below i x h1 h2 hx
        · rcases Nat.lt_trichotomy i p with hi1 | hi1 | hi1
          · exact htr _ _ _ (below i x h1 hi1 hx) (above j z hj h3 hz)
          · subst hi1
            rw [atp] at hx; cases hx
            exact above j z hj h3 hz
          · exact g3 i j x z (by omega) h2 h3 hx hz
    · rw [qsort, dif_neg hlt]
      exact ⟨l, rfl, fun _ _ => Seg.refl _ _ _, by intro i j x y; intros; omega⟩

theorem sort_spec (cmp : α → α → Int) (htot : ∀ a b, cmp a b < 0 ∨ cmp b a ≤ 0)
    (htr : ∀ a b c, cmp a b ≤ 0 → cmp b c ≤ 0 → cmp a c ≤ 0) (l : List α) :
    ∃ l', sort cmp l = .ok l' ∧ l'.Perm l ∧ l'.Pairwise (fun a b => cmp a b ≤ 0) := by
  obtain ⟨l', h1, h2, h3⟩ := qsort_spec cmp htot htr _ l 0 ((l.length : Int) - 1) (Nat.le_refl _) (by omega)
  have hs := h2 l.length (by omega)
  refine ⟨l', h1, hs.perm, ?_⟩
  rw [List.pairwise_iff_getElem]
  intro i j hi hj hij
  exact h3 i j _ _ (by omega) hij (by have := hs.len; omega) (by simp [hi]) (by simp [hj])

end Buzz.Sort
