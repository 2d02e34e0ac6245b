import Verif.Basic
import Mathlib.Data.List.Basic
import Mathlib.Data.List.Nodup
import Mathlib.Data.List.Perm.Basic

/-
Finite maps as association lists with unique keys.  By C03/C04 (`Verif/Props/Containers.lean`) a
`buzzdict_t` with a lawful hash/compare pair behaves as such a map: `set` and `del` below are the specification
functions used there.  Modules above the containers use this view of dictionaries.
-/
namespace Buzz.FMap

variable {K V : Type} [DecidableEq K]

/-- `buzzdict_get`. -/
def get (m : List (K × V)) (k : K) : Option V := (m.find? (fun e => e.1 == k)).map (·.2)

/-- `buzzdict_set`. -/
def set (m : List (K × V)) (k : K) (v : V) : List (K × V) := m.filter (fun e => e.1 != k) ++ [(k, v)]

/-- `buzzdict_remove`. -/
def del (m : List (K × V)) (k : K) : List (K × V) := m.filter (fun e => e.1 != k)

/-- Keys are unique. -/
def Ok (m : List (K × V)) : Prop := (m.map (·.1)).Nodup

@[simp] theorem get_nil (k : K) : get ([] : List (K × V)) k = none := rfl

theorem get_cons (e : K × V) (m : List (K × V)) (k : K) :
    get (e :: m) k = if e.1 = k then some e.2 else get m k := by
  unfold get
  by_cases h : e.1 = k
  · simp [h]
  · simp [h]

theorem get_filter_ne (m : List (K × V)) (k x : K) :
    get (m.filter (fun e => e.1 != k)) x = if x = k then none else get m x := by
  induction m with
  | nil => simp
  | cons e m ih =>
    by_cases h : e.1 = k
    · rw [List.filter_cons_of_neg (by simp [h]), ih, get_cons]
      by_cases hx : x = k
      · simp [hx]
      · have : e.1 ≠ x := by rw [h]; exact fun h' => hx h'.symm
        simp [hx, this]
    · rw [List.filter_cons_of_pos (by simpa using h), get_cons, get_cons, ih]
      by_cases hx : x = k
      · have : e.1 ≠ x := by rw [hx]; exact h
        simp [hx, h]
      · simp [hx]

theorem get_append (m n : List (K × V)) (k : K) : get (m ++ n) k = (get m k).or (get n k) := by
  unfold get
  rw [List.find?_append]
  cases m.find? (fun e => e.1 == k) <;> simp

theorem get_set (m : List (K × V)) (k x : K) (v : V) :
    get (set m k v) x = if x = k then some v else get m x := by
  unfold set
  rw [get_append, get_filter_ne, get_cons]
  by_cases hx : x = k
  · simp [hx]
  · have : k ≠ x := fun h => hx h.symm
    simp [hx, this]

@[simp] theorem get_set_self (m : List (K × V)) (k : K) (v : V) : get (set m k v) k = some v := by
  simp [get_set]

theorem get_del (m : List (K × V)) (k x : K) : get (del m k) x = if x = k then none else get m x :=
  get_filter_ne m k x

@[simp] theorem get_del_self (m : List (K × V)) (k : K) : get (del m k) k = none := by simp [get_del]

theorem get_eq_none_iff (m : List (K × V)) (k : K) : get m k = none ↔ k ∉ m.map (·.1) := by
  unfold get
  simp only [Option.map_eq_none_iff, List.find?_eq_none, List.mem_map, beq_iff_eq]
  constructor
  · rintro h ⟨e, he, hk⟩; exact h e he hk
  · intro h e he hk; exact h ⟨e, he, hk⟩

theorem mem_of_get {m : List (K × V)} {k : K} {v : V} (h : get m k = some v) : (k, v) ∈ m := by
  unfold get at h
  rw [Option.map_eq_some_iff] at h
  obtain ⟨e, he, hv⟩ := h
  have h1 := List.mem_of_find?_eq_some he
  have h2 := List.find?_some (p := fun e : K × V => e.1 == k) he
  have : e = (k, v) := by
    ext
    · simpa using h2
    · exact hv
  rwa [this] at h1

theorem ok_nil : Ok ([] : List (K × V)) := List.nodup_nil

theorem Ok.del {m : List (K × V)} (h : Ok m) (k : K) : Ok (del m k) := by
  unfold Ok FMap.del at *
  exact h.sublist (List.filter_sublist.map _)

theorem Ok.set {m : List (K × V)} (h : Ok m) (k : K) (v : V) : Ok (set m k v) := by
  have := Ok.del h k
  unfold Ok FMap.del FMap.set at *
  rw [List.map_append, List.nodup_append]
  refine ⟨this, by simp, ?_⟩
  intro a ha b hb
  simp at hb
  subst hb
  intro hab
  subst hab
  simp at ha

theorem get_of_mem {m : List (K × V)} (h : Ok m) {k : K} {v : V} (hm : (k, v) ∈ m) : get m k = some v := by
  induction m with
  | nil => cases hm
  | cons e m ih =>
    unfold Ok at h
    simp only [List.map_cons, List.nodup_cons] at h
    rw [get_cons]
    rcases List.mem_cons.mp hm with h1 | h1
    · rw [← h1]; simp
    · have : e.1 ≠ k := by
        intro he
        exact h.1 (List.mem_map.mpr ⟨(k, v), h1, he.symm⟩)
      rw [if_neg this]
      exact ih h.2 h1

theorem mem_iff_get {m : List (K × V)} (h : Ok m) {k : K} {v : V} : (k, v) ∈ m ↔ get m k = some v :=
  ⟨get_of_mem h, mem_of_get⟩

theorem mem_set {m : List (K × V)} {k : K} {v : V} {e : K × V} :
    e ∈ set m k v ↔ (e ∈ m ∧ e.1 ≠ k) ∨ e = (k, v) := by
  simp [set]

theorem mem_del {m : List (K × V)} {k : K} {e : K × V} : e ∈ del m k ↔ e ∈ m ∧ e.1 ≠ k := by
  simp [del]

theorem del_of_get_none {m : List (K × V)} {k : K} (h : get m k = none) : del m k = m := by
  rw [get_eq_none_iff] at h
  unfold del
  rw [List.filter_eq_self]
  intro a ha
  simp
  intro he
  exact h (List.mem_map.mpr ⟨a, ha, he⟩)

theorem length_set_new {m : List (K × V)} {k : K} {v : V} (h : get m k = none) :
    (set m k v).length = m.length + 1 := by
  have := del_of_get_none h
  unfold del at this
  unfold set
  rw [this]; simp

theorem length_del {m : List (K × V)} (h : Ok m) {k : K} {v : V} (hk : get m k = some v) :
    (del m k).length + 1 = m.length := by
  induction m with
  | nil => cases hk
  | cons e m ih =>
    unfold Ok at h
    simp only [List.map_cons, List.nodup_cons] at h
    rw [get_cons] at hk
    unfold del
    by_cases he : e.1 = k
    · rw [List.filter_cons_of_neg (by simp [he])]
      have : get m k = none := by rw [get_eq_none_iff, ← he]; exact h.1
      have := del_of_get_none this
      unfold del at this
      rw [this]; simp
    · rw [if_neg he] at hk
      rw [List.filter_cons_of_pos (by simpa using he)]
      have := ih h.2 hk
      unfold del at this
      simp; omega

theorem length_set_old {m : List (K × V)} (h : Ok m) {k : K} {v w : V} (hk : get m k = some w) :
    (set m k v).length = m.length := by
  have := length_del h hk
  unfold del at this
  unfold set
  simp; omega

/-- Two maps with the same lookups have the same number of entries. -/
theorem length_eq_of_get_eq {m n : List (K × V)} (hm : Ok m) (hn : Ok n) (h : ∀ k, get m k = get n k) :
    m.length = n.length := by
  have hp : m.Perm n := by
    rw [List.perm_ext_iff_of_nodup (List.Nodup.of_map _ hm) (List.Nodup.of_map _ hn)]
    rintro ⟨k, v⟩
    rw [mem_iff_get hm, mem_iff_get hn, h]
  exact hp.length_eq

end Buzz.FMap
