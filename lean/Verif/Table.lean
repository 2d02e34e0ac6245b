import Verif.Obj
import Verif.DictLemmas

/-
Buzz tables: dictionaries with `buzzobj_table_hash` / `buzzobj_table_keycmp` and 10 buckets (buzztype.c 9-52),
and the table part of `buzzvm_tput` / `buzzvm_tget` (buzzvm.c 1274-1332).
-/
namespace Buzz.Table

open Buzz.Msg

/-- A table with contents of type `V`.  Keys are the contents of the key objects (numbers and strings are
immutable). -/
abbrev Tbl (V : Type) := Dict.Dict Obj V

/-- `buzzobj_new(BUZZTYPE_TABLE)` (buzztype.c 46-53). -/
def new {V : Type} : Tbl V := Dict.new 10

/-- The hash value, for keys that can be hashed. -/
def hashN (k : Obj) : Nat :=
  match Obj.tableHash k with
  | .ok n => n
  | _ => 0

/-- `keycmpf(a, b) == 0`. -/
def keq (sc : Bytes → Bytes → Int) (a b : Obj) : Bool := decide (Obj.cmp sc a b = .ok 0)

/-- The comparisons made while a bucket is searched: each must be defined up to the first match. -/
def scan {V : Type} (sc : Bytes → Bytes → Int) (k : Obj) : List (Obj × V) → Res Unit
  | [] => .ok ()
  | e :: es => do
    let c ← Obj.cmp sc k e.1
    if c = 0 then pure () else scan sc k es

/-- Hash the key and search its bucket: the ways this can be undefined. -/
def check {V : Type} (sc : Bytes → Bytes → Int) (t : Tbl V) (k : Obj) : Res Unit := do
  let _ ← Obj.tableHash k
  let h ← Dict.slot hashN t k
  let b ← Dict.bucket t h
  scan sc k (b.getD [])

/-- `buzzdict_get(t, &k)`. -/
def get {V : Type} (sc : Bytes → Bytes → Int) (t : Tbl V) (k : Obj) : Res (Option V) := do
  check sc t k
  Dict.rawget hashN (keq sc) t k

/-- `buzzdict_set(t, &k, &v)`. -/
def set {V : Type} (sc : Bytes → Bytes → Int) (t : Tbl V) (k : Obj) (v : V) : Res (Tbl V) := do
  check sc t k
  let r ← Dict.set hashN (keq sc) t k v
  pure r.1

/-- `buzzdict_remove(t, &k)`. -/
def remove {V : Type} (sc : Bytes → Bytes → Int) (t : Tbl V) (k : Obj) : Res (Tbl V) := do
  check sc t k
  let r ← Dict.remove hashN (keq sc) t k
  pure r.1

/-- The table effect of `t[k] = v` (buzzvm.c 1289-1308): `none` is nil, which erases. -/
def put {V : Type} (sc : Bytes → Bytes → Int) (t : Tbl V) (k : Obj) : Option V → Res (Tbl V)
  | none => remove sc t k
  | some v => set sc t k v

/-! ### Homogeneous tables are finite maps -/

/-- A set of keys on which comparison is equality and hashing is defined. -/
structure Homog (sc : Bytes → Bytes → Int) (S : Obj → Prop) : Prop where
  hash : ∀ a, S a → ∃ n, Obj.tableHash a = .ok n
  cmp : ∀ a b, S a → S b → ∃ c, Obj.cmp sc a b = .ok c ∧ (c = 0 ↔ a = b)

/-- Equality as key comparison. -/
def eqd (a b : Obj) : Bool := decide (a = b)

theorem eqd_lawful : Dict.Lawful hashN eqd where
  refl := by intro a; simp [eqd]
  symm := by intro a b h; simp [eqd] at *; exact h.symm
  trans := by intro a b c h1 h2; simp [eqd] at *; exact h1.trans h2
  hash_eq := by intro a b h; simp [eqd] at h; rw [h]

variable {V : Type} {sc : Bytes → Bytes → Int} {S : Obj → Prop}

theorem keq_eqd (H : Homog sc S) {a b : Obj} (ha : S a) (hb : S b) : keq sc a b = eqd a b := by
  obtain ⟨c, h1, h2⟩ := H.cmp a b ha hb
  simp only [keq, eqd, h1, Res.ok.injEq, h2]

/-- All keys of the table are in `S`. -/
def Keys (S : Obj → Prop) (t : Tbl V) : Prop := ∀ e ∈ Dict.entries t, S e.1

theorem find_congr {l : List (Obj × V)} {p q : Obj × V → Bool} (h : ∀ e ∈ l, p e = q e) : l.find? p = l.find? q := by
  induction l with
  | nil => rfl
  | cons a l ih =>
    rw [List.find?_cons, List.find?_cons, h a (List.mem_cons_self ..),
      ih (fun e he => h e (List.mem_cons_of_mem _ he))]

theorem erase_congr {l : List (Obj × V)} {p q : Obj × V → Bool} (h : ∀ e ∈ l, p e = q e) : l.eraseP p = l.eraseP q := by
  induction l with
  | nil => rfl
  | cons a l ih =>
    rw [List.eraseP_cons, List.eraseP_cons, h a (List.mem_cons_self ..),
      ih (fun e he => h e (List.mem_cons_of_mem _ he))]

theorem bucket_keys {t : Tbl V} (hk : Keys S t) {h : Nat} {es : List (Obj × V)}
    (hb : Dict.bucket t h = .ok (some es)) : ∀ e ∈ es, S e.1 := by
  intro e he
  apply hk
  rw [Dict.mem_entries]
  refine ⟨h, es, ?_, he⟩
  unfold Dict.bucket at hb
  split at hb
  · rename_i b hb'; simp only [Res.ok.injEq] at hb; rw [hb', hb]
  · simp at hb

theorem rawget_congr (H : Homog sc S) {t : Tbl V} (hk : Keys S t) {k : Obj} (h : S k) :
    Dict.rawget hashN (keq sc) t k = Dict.rawget hashN eqd t k := by
  unfold Dict.rawget
  cases hs : Dict.slot hashN t k <;> try rfl
  rename_i i
  simp only [Res.ok_bind]
  cases hb : Dict.bucket t i <;> try rfl
  rename_i b
  simp only [Res.ok_bind]
  cases b with
  | none => rfl
  | some es =>
    simp only
    rw [find_congr (fun e he => keq_eqd H h (bucket_keys hk hb e he))]

theorem set_congr (H : Homog sc S) {t : Tbl V} (hk : Keys S t) {k : Obj} (h : S k) (v : V) :
    Dict.set hashN (keq sc) t k v = Dict.set hashN eqd t k v := by
  unfold Dict.set
  cases hs : Dict.slot hashN t k <;> try rfl
  rename_i i
  simp only [Res.ok_bind]
  cases hb : Dict.bucket t i <;> try rfl
  rename_i b
  simp only [Res.ok_bind]
  cases b with
  | none => rfl
  | some es =>
    simp only
    rw [find_congr (fun e he => keq_eqd H h (bucket_keys hk hb e he)),
      erase_congr (fun e he => keq_eqd H h (bucket_keys hk hb e he))]

theorem remove_congr (H : Homog sc S) {t : Tbl V} (hk : Keys S t) {k : Obj} (h : S k) :
    Dict.remove hashN (keq sc) t k = Dict.remove hashN eqd t k := by
  unfold Dict.remove
  cases hs : Dict.slot hashN t k <;> try rfl
  rename_i i
  simp only [Res.ok_bind]
  cases hb : Dict.bucket t i <;> try rfl
  rename_i b
  simp only [Res.ok_bind]
  cases b with
  | none => rfl
  | some es =>
    simp only
    rw [find_congr (fun e he => keq_eqd H h (bucket_keys hk hb e he)),
      erase_congr (fun e he => keq_eqd H h (bucket_keys hk hb e he))]

theorem scan_ok (H : Homog sc S) {k : Obj} (h : S k) : ∀ (es : List (Obj × V)), (∀ e ∈ es, S e.1) → scan sc k es = .ok ()
  | [], _ => rfl
  | e :: es, he => by
    obtain ⟨c, h1, _⟩ := H.cmp k e.1 h (he e (List.mem_cons_self ..))
    simp only [scan, h1, Res.ok_bind]
    split
    · rfl
    · exact scan_ok H h es (fun x hx => he x (List.mem_cons_of_mem _ hx))

theorem check_ok (H : Homog sc S) {t : Tbl V} (w : Dict.WF hashN eqd t) (hk : Keys S t) {k : Obj} (h : S k) :
    check sc t k = .ok () := by
  obtain ⟨n, hn⟩ := H.hash k h
  obtain ⟨b, _, hs, hb⟩ := Dict.home_bucket w k
  simp only [check, hn, hs, hb, Res.ok_bind]
  cases b with
  | none => rfl
  | some es => exact scan_ok H h es (bucket_keys hk hb)

/-- Reading a homogeneous table. -/
theorem get_spec (H : Homog sc S) {t : Tbl V} (w : Dict.WF hashN eqd t) (hk : Keys S t) {k : Obj} (h : S k) :
    get sc t k = .ok (((Dict.entries t).find? (fun e => eqd k e.1)).map (·.2)) := by
  simp only [get, check_ok H w hk h, Res.ok_bind, rawget_congr H hk h]
  exact Dict.rawget_spec eqd_lawful w k

/-- Writing a homogeneous table. -/
theorem put_spec (H : Homog sc S) {t : Tbl V} (w : Dict.WF hashN eqd t) (hk : Keys S t) {k : Obj} (h : S k)
    (v : Option V) : ∃ t', put sc t k v = .ok t' ∧ Dict.WF hashN eqd t' ∧ Keys S t' ∧
      (Dict.entries t').Perm ((Dict.entries t).filter (fun e => !eqd k e.1) ++ (v.map (fun v => (k, v))).toList) := by
  cases v with
  | none =>
    obtain ⟨t', log, h1, h2, _, h3, _⟩ := Dict.remove_spec eqd_lawful w k
    refine ⟨t', by simp [put, remove, check_ok H w hk h, remove_congr H hk h, h1], h2, ?_, by simpa using h3⟩
    intro e he
    exact hk e (List.mem_of_mem_filter (h3.mem_iff.mp he))
  | some v =>
    obtain ⟨t', log, h1, h2, _, h3, _⟩ := Dict.set_spec eqd_lawful w k v
    refine ⟨t', by simp [put, set, check_ok H w hk h, set_congr H hk h, h1], h2, ?_, by simpa using h3⟩
    intro e he
    rcases List.mem_append.mp (h3.mem_iff.mp he) with g | g
    · exact hk e (List.mem_of_mem_filter g)
    · simp only [List.mem_singleton] at g; rw [g]; exact h

end Buzz.Table
