import Verif.Dict
import Mathlib.Data.List.Basic
import Mathlib.Data.List.Perm.Basic

/-! Refinement of the bucket dictionary by association lists with unique keys: lemmas. -/
namespace Buzz.Dict

variable {K V : Type}

/-- Laws a hash/compare pair must satisfy. -/
structure Lawful (hash : K → Nat) (eqk : K → K → Bool) : Prop where
  refl : ∀ a, eqk a a = true
  symm : ∀ a b, eqk a b = true → eqk b a = true
  trans : ∀ a b c, eqk a b = true → eqk b c = true → eqk a c = true
  hash_eq : ∀ a b, eqk a b = true → hash a = hash b

/-- The dictionary is well formed. -/
structure WF (hash : K → Nat) (eqk : K → K → Bool) (d : Dict K V) : Prop where
  pos : 0 < d.buckets.length
  home : ∀ (i : Nat) (es : List (K × V)), d.buckets[i]? = some (some es) → ∀ e ∈ es, hash e.1 % d.buckets.length = i
  uniq : ∀ (i : Nat) (es : List (K × V)), d.buckets[i]? = some (some es) → es.Pairwise (fun a b => eqk a.1 b.1 = false)
  nonempty : ∀ i : Nat, d.buckets[i]? ≠ some (some [])
  size_eq : d.size = (entries d).length % U32

theorem new_wf {hash : K → Nat} {eqk : K → K → Bool} {n : Nat} (h : 0 < n) :
    WF hash eqk (new n : Dict K V) := by
  refine ⟨by simpa [new] using h, ?_, ?_, ?_, ?_⟩
  · intro i es h1
    simp [new, List.getElem?_replicate] at h1
  · intro i es h1
    simp [new, List.getElem?_replicate] at h1
  · intro i h1
    simp [new, List.getElem?_replicate] at h1
  · simp [new, entries]

theorem entries_new (n : Nat) : entries (new n : Dict K V) = [] := by
  simp [new, entries]

/-- Splitting the buckets at a position. -/
theorem split_at {d : Dict K V} {h : Nat} {b : Option (List (K × V))} (hb : d.buckets[h]? = some b) :
    ∃ l r, d.buckets = l ++ b :: r ∧ l.length = h := by
  obtain ⟨hlt, he⟩ := List.getElem?_eq_some_iff.mp hb
  refine ⟨d.buckets.take h, d.buckets.drop (h + 1), ?_, by simp; omega⟩
  rw [← he]; simp

theorem entries_split {l r : List (Option (List (K × V)))} {b : Option (List (K × V))} {s : Nat} :
    entries ⟨l ++ b :: r, s⟩ = (l.flatMap (fun b => b.getD [])) ++ (b.getD [] ++ r.flatMap (fun b => b.getD [])) := by
  simp [entries]

theorem set_split {l r : List (Option (List (K × V)))} {b b' : Option (List (K × V))} :
    (l ++ b :: r).set l.length b' = l ++ b' :: r := by
  simp

section
variable {hash : K → Nat} {eqk : K → K → Bool}

/-- Entries outside the home bucket never match. -/
theorem mem_entries {d : Dict K V} {e : K × V} :
    e ∈ entries d ↔ ∃ (i : Nat) (es : List (K × V)), d.buckets[i]? = some (some es) ∧ e ∈ es := by
  simp only [entries, List.mem_flatMap]
  constructor
  · rintro ⟨b, hb, he⟩
    cases b with
    | none => simp at he
    | some es =>
      obtain ⟨i, hi⟩ := List.mem_iff_getElem?.mp hb
      exact ⟨i, es, hi, he⟩
  · rintro ⟨i, es, hi, he⟩
    exact ⟨some es, List.mem_iff_getElem?.mpr ⟨i, hi⟩, he⟩

theorem home_of_match (L : Lawful hash eqk) {d : Dict K V} (w : WF hash eqk d) {k : K} {i : Nat}
    {es : List (K × V)} (hi : d.buckets[i]? = some (some es)) {e : K × V} (he : e ∈ es)
    (hk : eqk k e.1 = true) : i = hash k % d.buckets.length := by
  rw [L.hash_eq _ _ hk, w.home i es hi e he]

/-- Away from bucket `h` no entry matches `k`. -/
theorem no_match_away (L : Lawful hash eqk) {d : Dict K V} (w : WF hash eqk d) {k : K}
    {l r : List (Option (List (K × V)))} {b : Option (List (K × V))}
    (hd : d.buckets = l ++ b :: r) (hl : l.length = hash k % d.buckets.length) :
    (∀ e ∈ l.flatMap (fun b => b.getD []), eqk k e.1 = false) ∧
    (∀ e ∈ r.flatMap (fun b => b.getD []), eqk k e.1 = false) := by
  constructor
  · intro e he
    rw [List.mem_flatMap] at he
    obtain ⟨b', hb', he⟩ := he
    cases b' with
    | none => simp at he
    | some es =>
      obtain ⟨i, hi⟩ := List.mem_iff_getElem?.mp hb'
      have hil : i < l.length := (List.getElem?_eq_some_iff.mp hi).1
      by_contra hne
      have hk : eqk k e.1 = true := by simpa using hne
      have hi' : d.buckets[i]? = some (some es) := by rw [hd, List.getElem?_append_left hil]; exact hi
      have := home_of_match L w hi' he hk
      omega
  · intro e he
    rw [List.mem_flatMap] at he
    obtain ⟨b', hb', he⟩ := he
    cases b' with
    | none => simp at he
    | some es =>
      obtain ⟨i, hi⟩ := List.mem_iff_getElem?.mp hb'
      by_contra hne
      have hk : eqk k e.1 = true := by simpa using hne
      have hi' : d.buckets[l.length + 1 + i]? = some (some es) := by
        rw [hd, List.getElem?_append_right (by omega)]
        have : l.length + 1 + i - l.length = i + 1 := by omega
        rw [this]; simpa using hi
      have := home_of_match L w hi' he hk
      omega

/-- A bucket whose keys are pairwise different has at most the first match. -/
theorem eraseP_eq_filter (L : Lawful hash eqk) (k : K) :
    ∀ (es : List (K × V)), es.Pairwise (fun a b => eqk a.1 b.1 = false) →
      es.eraseP (fun e => eqk k e.1) = es.filter (fun e => !eqk k e.1)
  | [], _ => rfl
  | e :: es, h => by
    rw [List.pairwise_cons] at h
    by_cases hk : eqk k e.1 = true
    · rw [List.eraseP_cons_of_pos (p := fun e : K × V => eqk k e.1) hk, List.filter_cons_of_neg (by simp [hk])]
      symm
      rw [List.filter_eq_self]
      intro a ha
      have h1 := h.1 a ha
      by_contra hne
      have hka : eqk k a.1 = true := by simpa using hne
      have := L.trans _ _ _ (L.symm _ _ hk) hka
      rw [this] at h1; cases h1
    · rw [List.eraseP_cons_of_neg (p := fun e : K × V => eqk k e.1) hk, List.filter_cons_of_pos (by simpa using hk),
        eraseP_eq_filter L k es h.2]

theorem find_toList_eq_filter (L : Lawful hash eqk) (k : K) :
    ∀ (es : List (K × V)), es.Pairwise (fun a b => eqk a.1 b.1 = false) →
      (es.find? (fun e => eqk k e.1)).toList = es.filter (fun e => eqk k e.1)
  | [], _ => rfl
  | e :: es, h => by
    rw [List.pairwise_cons] at h
    by_cases hk : eqk k e.1 = true
    · rw [List.find?_cons_of_pos (p := fun e : K × V => eqk k e.1) hk, List.filter_cons_of_pos (by simp [hk])]
      have : es.filter (fun e => eqk k e.1) = [] := by
        rw [List.filter_eq_nil_iff]
        intro a ha hka
        have h1 := h.1 a ha
        have := L.trans _ _ _ (L.symm _ _ hk) hka
        rw [this] at h1; cases h1
      simp [this]
    · rw [List.find?_cons_of_neg (p := fun e : K × V => eqk k e.1) hk, List.filter_cons_of_neg (by simpa using hk),
        find_toList_eq_filter L k es h.2]

/-- A lookup of the bucket at the key's home position. -/
theorem home_bucket {d : Dict K V} (w : WF hash eqk d) (k : K) :
    ∃ b, d.buckets[hash k % d.buckets.length]? = some b ∧
      slot hash d k = .ok (hash k % d.buckets.length) ∧
      bucket d (hash k % d.buckets.length) = .ok b := by
  have hlt := Nat.mod_lt (hash k) w.pos
  refine ⟨d.buckets[hash k % d.buckets.length], by simp [hlt], ?_, ?_⟩
  · unfold slot; rw [if_neg (by have := w.pos; omega)]
  · unfold bucket; simp [hlt]

theorem rawget_spec (L : Lawful hash eqk) {d : Dict K V} (w : WF hash eqk d) (k : K) :
    rawget hash eqk d k = .ok (((entries d).find? (fun e => eqk k e.1)).map (·.2)) := by
  obtain ⟨b, hb, hs, hbk⟩ := home_bucket w k
  obtain ⟨l, r, hd, hl⟩ := split_at hb
  obtain ⟨hnl, hnr⟩ := no_match_away L w hd hl
  unfold rawget
  rw [hs, Res.ok_bind, hbk, Res.ok_bind]
  have he : entries d = (l.flatMap (fun b => b.getD [])) ++ (b.getD [] ++ r.flatMap (fun b => b.getD [])) := by
    simp [entries, hd]
  rw [he, List.find?_append, List.find?_eq_none.mpr (by simpa using hnl), Option.none_or, List.find?_append]
  have hr0 : (r.flatMap (fun b => b.getD [])).find? (fun e => eqk k e.1) = none :=
    List.find?_eq_none.mpr (by simpa using hnr)
  rw [hr0]
  cases b <;> simp

theorem entries_uniq (L : Lawful hash eqk) {d : Dict K V} (w : WF hash eqk d) :
    (entries d).Pairwise (fun a b => eqk a.1 b.1 = false) := by
  unfold entries
  rw [List.pairwise_flatMap]
  constructor
  · intro b hb
    cases b with
    | none => simp
    | some es =>
      obtain ⟨i, hi⟩ := List.mem_iff_getElem?.mp hb
      exact w.uniq i es hi
  · rw [List.pairwise_iff_getElem]
    intro i j hi hj hij x hx y hy
    by_contra hne
    have hk : eqk x.1 y.1 = true := by simpa using hne
    cases hbi : d.buckets[i] with
    | none => rw [hbi] at hx; simp at hx
    | some es =>
      cases hbj : d.buckets[j] with
      | none => rw [hbj] at hy; simp at hy
      | some fs =>
        rw [hbi] at hx; rw [hbj] at hy
        have h1 := w.home i es (by simp [hi, hbi]) x hx
        have h2 := w.home j fs (by simp [hj, hbj]) y hy
        rw [L.hash_eq _ _ hk] at h1
        omega

/-- Replacing the home bucket's contents keeps well-formedness. -/
theorem wf_replace {d : Dict K V} (w : WF hash eqk d) {h : Nat} {b b' : Option (List (K × V))}
    (hb : d.buckets[h]? = some b) {s : Nat}
    (hhome : ∀ es, b' = some es → ∀ e ∈ es, hash e.1 % d.buckets.length = h)
    (huniq : ∀ es, b' = some es → es.Pairwise (fun a b => eqk a.1 b.1 = false))
    (hne : b' ≠ some [])
    (hs : s = (entries ⟨d.buckets.set h b', s⟩).length % U32) :
    WF hash eqk ⟨d.buckets.set h b', s⟩ := by
  have hlt : h < d.buckets.length := (List.getElem?_eq_some_iff.mp hb).1
  refine ⟨by simpa using w.pos, ?_, ?_, ?_, hs⟩
  · intro i es hi e he
    simp only [List.length_set]
    simp only [List.getElem?_set] at hi
    split at hi
    · rename_i h1
      subst h1
      exact hhome es (by simpa [hlt] using hi) e he
    · exact w.home i es hi e he
  · intro i es hi
    simp only [List.getElem?_set] at hi
    split at hi
    · rename_i h1
      subst h1
      exact huniq es (by simpa [hlt] using hi)
    · exact w.uniq i es hi
  · intro i hi
    simp only [List.getElem?_set] at hi
    split at hi
    · rename_i h1
      subst h1
      exact hne (by simpa [hlt] using hi)
    · exact w.nonempty i hi

theorem filter_not_of_none {p : K × V → Bool} {l : List (K × V)} (h : ∀ e ∈ l, p e = false) :
    l.filter (fun e => !p e) = l := by
  rw [List.filter_eq_self]; intro a ha; simp [h a ha]

theorem filter_of_none {p : K × V → Bool} {l : List (K × V)} (h : ∀ e ∈ l, p e = false) :
    l.filter p = [] := by
  rw [List.filter_eq_nil_iff]; intro a ha; simp [h a ha]

/-- Specification of `set`: the previous binding of `k` disappears and `(k, v)` is added. -/
theorem set_spec (L : Lawful hash eqk) {d : Dict K V} (w : WF hash eqk d) (k : K) (v : V) :
    ∃ d' log, set hash eqk d k v = .ok (d', log) ∧ WF hash eqk d' ∧
      d'.buckets.length = d.buckets.length ∧
      (entries d').Perm ((entries d).filter (fun e => !eqk k e.1) ++ [(k, v)]) ∧
      log = (entries d).filter (fun e => eqk k e.1) := by
  obtain ⟨b, hb, hs, hbk⟩ := home_bucket w k
  obtain ⟨l, r, hd, hl⟩ := split_at hb
  obtain ⟨hnl, hnr⟩ := no_match_away L w hd hl
  have he : entries d = (l.flatMap (fun b => b.getD [])) ++ (b.getD [] ++ r.flatMap (fun b => b.getD [])) := by
    simp [entries, hd]
  have hset : ∀ b', d.buckets.set (hash k % d.buckets.length) b' = l ++ b' :: r := by
    intro b'; rw [hd] at hl ⊢; rw [← hl]; simp
  have hsz := w.size_eq
  unfold set
  rw [hs, Res.ok_bind, hbk, Res.ok_bind]
  cases b with
  | none =>
    refine ⟨_, _, rfl, ?_, by simp, ?_, ?_⟩
    · apply wf_replace w hb
      · intro es hes e hee
        cases hes
        simp at hee; subst hee; rfl
      · intro es hes; cases hes; simp
      · simp
      · rw [hset]
        rw [he] at hsz
        simp [entries] at hsz ⊢
        rw [hsz]
        simp only [U32]
        omega
    · rw [hset, entries_split, he]
      simp only [Option.getD_none, List.nil_append, List.filter_append,
        filter_not_of_none hnl, filter_not_of_none hnr, Option.getD_some, List.append_assoc]
      exact List.Perm.append_left _ List.perm_append_comm
    · rw [he]
      simp [filter_of_none hnl, filter_of_none hnr]
  | some es =>
    have hu := w.uniq _ es hb
    have hhm := w.home _ es hb
    simp only
    cases hf : es.find? (fun e => eqk k e.1) with
    | none =>
      have hnone : ∀ e ∈ es, eqk k e.1 = false := by
        intro e hee
        have := List.find?_eq_none.mp hf e hee
        simpa using this
      refine ⟨_, _, rfl, ?_, by simp, ?_, ?_⟩
      · apply wf_replace w hb
        · intro es' hes e hee
          cases hes
          rw [List.mem_append] at hee
          rcases hee with hee | hee
          · exact hhm e hee
          · simp at hee; subst hee; rfl
        · intro es' hes
          cases hes
          rw [List.pairwise_append]
          refine ⟨hu, by simp, ?_⟩
          intro a ha c hc
          simp at hc; subst hc
          have h1 := hnone a ha
          by_contra hne
          have : eqk a.1 k = true := by simpa using hne
          rw [L.symm _ _ this] at h1; cases h1
        · simp
        · rw [hset]
          rw [he] at hsz
          simp [entries] at hsz ⊢
          rw [hsz]
          simp only [U32]
          omega
      · rw [hset, entries_split, he]
        simp only [List.filter_append,
          filter_not_of_none hnl, filter_not_of_none hnr, Option.getD_some, List.append_assoc,
          filter_not_of_none hnone]
        exact List.Perm.append_left _ (List.Perm.append_left _ List.perm_append_comm)
      · rw [he]
        simp [filter_of_none hnl, filter_of_none hnr, filter_of_none hnone]
    | some e =>
      have her := eraseP_eq_filter L k es hu
      have hft := find_toList_eq_filter L k es hu
      rw [hf] at hft
      have hlen : (es.filter (fun e => !eqk k e.1)).length + 1 = es.length := by
        have h1 : (es.filter (fun e => eqk k e.1)).length = 1 := by rw [← hft]; rfl
        have := List.length_eq_length_filter_add (l := es) (fun e => eqk k e.1)
        omega
      refine ⟨_, _, rfl, ?_, by simp, ?_, ?_⟩
      · rw [her]
        apply wf_replace w hb
        · intro es' hes e' hee
          cases hes
          rw [List.mem_append] at hee
          rcases hee with hee | hee
          · exact hhm e' (List.mem_filter.mp hee).1
          · simp at hee; subst hee; rfl
        · intro es' hes
          cases hes
          rw [List.pairwise_append]
          refine ⟨hu.filter _, by simp, ?_⟩
          intro a ha c hc
          simp at hc; subst hc
          have h1 := (List.mem_filter.mp ha).2
          by_contra hne
          have : eqk a.1 k = true := by simpa using hne
          rw [L.symm _ _ this] at h1; cases h1
        · simp
        · rw [hset]
          rw [he] at hsz
          simp [entries] at hsz ⊢
          rw [hsz]
          simp only [U32]
          omega
      · rw [her, hset, entries_split, he]
        simp only [List.filter_append,
          filter_not_of_none hnl, filter_not_of_none hnr, Option.getD_some, List.append_assoc]
        exact List.Perm.append_left _ (List.Perm.append_left _ List.perm_append_comm)
      · rw [he]
        simp [filter_of_none hnl, filter_of_none hnr, ← hft]

/-- Specification of `remove`. -/
theorem remove_spec (L : Lawful hash eqk) {d : Dict K V} (w : WF hash eqk d) (k : K) :
    ∃ d' log, remove hash eqk d k = .ok (d', (entries d).any (fun e => eqk k e.1), log) ∧ WF hash eqk d' ∧
      d'.buckets.length = d.buckets.length ∧
      (entries d').Perm ((entries d).filter (fun e => !eqk k e.1)) ∧
      log = (entries d).filter (fun e => eqk k e.1) := by
  obtain ⟨b, hb, hs, hbk⟩ := home_bucket w k
  obtain ⟨l, r, hd, hl⟩ := split_at hb
  obtain ⟨hnl, hnr⟩ := no_match_away L w hd hl
  have he : entries d = (l.flatMap (fun b => b.getD [])) ++ (b.getD [] ++ r.flatMap (fun b => b.getD [])) := by
    simp [entries, hd]
  have hset : ∀ b', d.buckets.set (hash k % d.buckets.length) b' = l ++ b' :: r := by
    intro b'; rw [hd] at hl ⊢; rw [← hl]; simp
  have hsz := w.size_eq
  have hal : ∀ (x : List (K × V)), (∀ e ∈ x, eqk k e.1 = false) → x.any (fun e => eqk k e.1) = false := by
    intro x hx
    rw [List.any_eq_false]; intro e hee; simp [hx e hee]
  unfold remove
  rw [hs, Res.ok_bind, hbk, Res.ok_bind]
  cases b with
  | none =>
    refine ⟨d, [], ?_, w, rfl, ?_, ?_⟩
    · rw [he]; simp only [Option.getD_none, List.nil_append, List.any_append, hal _ hnl, hal _ hnr]; rfl
    · rw [he]
      simp only [Option.getD_none, List.nil_append, List.filter_append, filter_not_of_none hnl, filter_not_of_none hnr]
      exact List.Perm.refl _
    · rw [he]; simp [filter_of_none hnl, filter_of_none hnr]
  | some es =>
    have hu := w.uniq _ es hb
    have hhm := w.home _ es hb
    simp only
    cases hf : es.find? (fun e => eqk k e.1) with
    | none =>
      have hnone : ∀ e ∈ es, eqk k e.1 = false := by
        intro e hee
        have := List.find?_eq_none.mp hf e hee
        simpa using this
      refine ⟨d, [], ?_, w, rfl, ?_, ?_⟩
      · rw [he]; simp only [Option.getD_some, List.any_append, hal _ hnl, hal _ hnr, hal _ hnone]; rfl
      · rw [he]
        simp only [Option.getD_some, List.filter_append, filter_not_of_none hnl, filter_not_of_none hnr,
          filter_not_of_none hnone]
        exact List.Perm.refl _
      · rw [he]; simp [filter_of_none hnl, filter_of_none hnr, filter_of_none hnone]
    | some e =>
      have her := eraseP_eq_filter L k es hu
      have hft := find_toList_eq_filter L k es hu
      rw [hf] at hft
      have hlen : (es.filter (fun e => !eqk k e.1)).length + 1 = es.length := by
        have h1 : (es.filter (fun e => eqk k e.1)).length = 1 := by rw [← hft]; rfl
        have := List.length_eq_length_filter_add (l := es) (fun e => eqk k e.1)
        omega
      have hgd : ∀ (x : List (K × V)), (if x.isEmpty then none else some x).getD [] = x := by
        intro x; cases x <;> rfl
      refine ⟨⟨d.buckets.set (hash k % d.buckets.length)
          (if (es.eraseP (fun e => eqk k e.1)).isEmpty then none else some (es.eraseP (fun e => eqk k e.1))),
          (d.size + (U32 - 1)) % U32⟩, [e], ?_, ?_, by simp, ?_, ?_⟩
      · have : (entries d).any (fun e => eqk k e.1) = true := by
          rw [he]
          have h2 : es.any (fun e => eqk k e.1) = true := by
            rw [List.any_eq_true]
            exact ⟨e, List.mem_of_find?_eq_some hf, List.find?_some (p := fun e : K × V => eqk k e.1) hf⟩
          simp only [Option.getD_some, List.any_append, h2, Bool.true_or, Bool.or_true]
        rw [this]; rfl
      · rw [her]
        apply wf_replace w hb
        · intro es' hes e' hee
          split at hes
          · cases hes
          · cases hes
            exact hhm e' (List.mem_filter.mp hee).1
        · intro es' hes
          split at hes
          · cases hes
          · cases hes
            exact hu.filter _
        · split
          · simp
          · rename_i h1; intro h2; simp only [Option.some.injEq] at h2; rw [h2] at h1; simp at h1
        · rw [hset, entries_split, hgd]
          rw [he] at hsz
          simp only [List.length_append, Option.getD_some] at hsz ⊢
          rw [hsz]
          simp only [U32]
          omega
      · rw [her, hset, entries_split, hgd, he]
        simp only [List.filter_append,
          filter_not_of_none hnl, filter_not_of_none hnr, Option.getD_some]
        exact List.Perm.refl _
      · rw [he]
        simp [filter_of_none hnl, filter_of_none hnr, ← hft]

end

end Buzz.Dict
