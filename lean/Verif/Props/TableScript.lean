import Verif.Props.Script
import Verif.Props.CompareOps
import Verif.TableScript

/-
The table functions that are written in Buzz (src/include/table.bzz): property C70.

The script is `tableBzz` (`Verif/BzzTable.lean`), byte for byte.  The specification is about lists: `IsList` says that a table holds a list.
-/
namespace Buzz.Props

open Buzz.Msg Buzz.Lex Buzz.Debug Buzz.Asm Buzz.Parser Buzz.Comp Buzz.VM Buzz.Heap Buzz.Sim Buzz.Link
open Buzz.F32 (Flt)
open Buzz.Lang (Ast Thing Scope Shape St T2 Syn Host complete Legal globalVal stdLib)

/-! ## C70 -/

/-- The function `name` of the global table `tbl`, called in the state `s`, returns `v` and leaves the state `s'`. -/
def Invokes (H : Host) (n : Nat) (tbl : String) (s : St) (name : String) (args : List Obj) (v : Obj) (s' : St) : Prop :=
  ∃ f, Lang.tabGet (globalVal (ascii tbl) s) (.str 0 (ascii name)) s = .ok (.clo f) s ∧ Lang.apply H.lib (Lang.exec H n) (.clo f) args s = .ok v s'

/-- The script's functions are in the table `table`, and `size` is the function of the library. -/
def TableReady (s : St) : Prop := ∃ lt k slf, HasFns N.table s.globals s.store lt (tableFns lt) ∧ Lang.valueOf N.size s.globals = some (.clo k) ∧ s.store[k]? = some (.host 15 [slf])

/-- The table at `l` holds the list `a`: its entries are, in any order, the element number `i` under the key `i`. -/
def IsList (s : St) (l : Nat) (a : List Obj) : Prop := ∃ es, s.store[l]? = some (.tab es) ∧ es.Perm (a.zipIdx.map fun e => (.int (e.2 : Nat), e.1))

/-- Neither nil nor a function: a table can hold it as it is. -/
def Storable (x : Obj) : Prop := x ≠ .nil ∧ ∀ f, x ≠ .clo f

/-- The elements `i` and `j` exchanged. -/
def exchanged (a : List Obj) (i j : Nat) : List Obj := a.mapIdx fun k x => if k = i then a[j]?.getD x else if k = j then a[i]?.getD x else x

/-! ### Lemmas -/

theorem storable_plain {x : Obj} (h : Storable x) : plainVal x = true := by
  cases x with
  | nil => exact absurd rfl h.1
  | clo f => exact absurd rfl (h.2 f)
  | _ => rfl

theorem invokes_of {H : Host} {n : Nat} {s s' : St} {lt : Nat} (h : HasFns N.table s.globals s.store lt (tableFns lt)) {name : String} {k : Bytes} (hn : ascii name = k) {t : Thing} (hk : (k, t) ∈ tableFns lt)
    {args : List Obj} {v : Obj} (hr : ∀ f, s.store[f]? = some t → Lang.apply H.lib (Lang.exec H n) (.clo f) args s = .ok v s') : Invokes H n "table" s name args v s' := by
  obtain ⟨f, h1, h2⟩ := h.get hk
  refine ⟨f, ?_, hr f h1⟩
  rw [hn, show ascii "table" = N.table from by decide]
  unfold globalVal
  rw [h.glob]
  exact h2 _

theorem exchanged_eq {a : List Obj} {i j : Nat} (hi : i < a.length) (hj : j < a.length) : exchanged a i j = (a.set i a[j]).set j a[i] := by
  refine List.ext_getElem? fun k => ?_
  rw [Sort.swap_getElem? hi hj]
  unfold exchanged
  rw [List.getElem?_mapIdx, List.getElem?_eq_getElem hi, List.getElem?_eq_getElem hj]
  by_cases h1 : k = i
  · subst h1
    rw [List.getElem?_eq_getElem hi]
    by_cases h2 : k = j
    · subst h2; simp
    · simp [h2]
  · by_cases h2 : k = j
    · subst h2
      simp [hj, h1]
    · simp [h1, h2]

/-- An order of some objects as one of all: the others are behind them. -/
theorem extend {D : Obj → Prop} {le : Obj → Obj → Bool} (htot : ∀ x y, D x → D y → le x y = true ∨ le y x = true)
    (htr : ∀ x y z, D x → D y → D z → le x y = true → le y z = true → le x z = true) :
    ∃ le' : Obj → Obj → Bool, (∀ x y, D x → D y → le' x y = le x y) ∧ (∀ x y, le' x y = true ∨ le' y x = true) ∧ ∀ x y z, le' x y = true → le' y z = true → le' x z = true := by
  classical
  refine ⟨fun x y => decide (D y → D x ∧ le x y = true), fun x y hx hy => ?_, fun x y => ?_, fun x y z h1 h2 => ?_⟩
  · simp [hx, hy]
  · by_cases hx : D x
    · by_cases hy : D y
      · rcases htot x y hx hy with h | h
        · exact .inl (by simp [hx, h])
        · exact .inr (by simp [hy, h])
      · exact .inl (by simp [hy])
    · exact .inr (by simp [hx])
  · simp only [decide_eq_true_eq] at h1 h2 ⊢
    intro hz
    obtain ⟨hy, h3⟩ := h2 hz
    obtain ⟨hx, h4⟩ := h1 hy
    exact ⟨hx, htr x y z hx hy hz h4 h3⟩

theorem globalVal_of {x : Bytes} {s s' : St} (h : Lang.valueOf x s'.globals = Lang.valueOf x s.globals) : globalVal x s' = globalVal x s := by
  unfold globalVal
  rw [h]

theorem of_images {α : Type} {c : α → Obj} : ∀ a : List Obj, (∀ x ∈ a, ∃ i, x = c i) → ∃ b : List α, a = b.map c
  | [], _ => ⟨[], rfl⟩
  | x :: a, h => by
    obtain ⟨i, rfl⟩ := h x List.mem_cons_self
    obtain ⟨b, rfl⟩ := of_images a (fun y hy => h y (List.mem_cons_of_mem _ hy))
    exact ⟨i :: b, rfl⟩

theorem less_trans {a b c : Flt} (hb : b ≠ .nan) (h1 : ¬ Less b a) (h2 : ¬ Less c b) (ha : a ≠ .nan) (hc : c ≠ .nan) : ¬ Less c a := by
  cases a <;> cases b <;> cases c <;> simp only [Less, not_lt, not_and, Bool.not_eq_false, Bool.not_eq_true, ne_eq, not_true_eq_false] at * <;> first | exact h1.trans h2 | simp_all

/-! ### The script -/

/-- **C70**: the script, executed after the registration of the library, makes a new table `table` with its functions, and changes nothing else. -/
theorem C70_load (E : Env) (strtof : Bytes → Option Nat) (n robot : Nat) (s0 s1 : St) (h : Standard robot s0 s1) (ht : s0.scope = .top) :
    ∃ s2, Lang.exec ⟨E, strtof, stdLib⟩ n tableAst s1 = .ok [] s2 ∧ TableReady s2 ∧ s2.scope = .top ∧ (∀ x, x ≠ ascii "table" → globalVal x s2 = globalVal x s1) ∧
      ∀ i < s1.store.length, s2.store[i]? = s1.store[i]? := by
  have hsc := h.scope
  rw [ht] at hsc
  obtain ⟨slf, k, hz, hk⟩ := h.funs 15 ("", "size") (by decide)
  obtain ⟨g, st, sc⟩ := s1
  subst hsc
  obtain ⟨run, hr⟩ := exec_eval ⟨E, strtof, stdLib⟩ n
  obtain ⟨st', h1, h2, h3⟩ := load_table (H := ⟨E, strtof, stdLib⟩) (n := n) (run := run) (g := g) (st := st)
  refine ⟨⟨_, st', .top⟩, by rw [hr]; exact h1, ⟨_, k, slf, h2, ?_, ?_⟩, rfl, ?_, h3⟩
  · show Lang.valueOf N.size (putG N.table (.tab st.length) g) = _
    rw [putG_ne (by decide)]
    unfold Sim.member at hz
    rw [if_pos rfl] at hz
    obtain ⟨_, hz⟩ := Prod.mk.inj (Option.some.inj hz)
    unfold globalVal at hz
    rw [show ascii "size" = N.size from by decide] at hz
    cases hv : Lang.valueOf N.size g with
    | none => rw [hv] at hz; cases hz
    | some v => rw [hv] at hz; exact congrArg some hz
  · rw [h3 k (List.getElem?_eq_some_iff.mp hk).1]
    exact hk
  · intro x hx
    exact globalVal_of (putG_ne (by rwa [show ascii "table" = N.table from by decide] at hx) _ _)

/-- **C70**: `table.swap(t, i, j)` exchanges two elements and changes nothing else. -/
theorem C70_swap (H : Host) (n : Nat) (s : St) (hs : TableReady s) (l : Nat) (a : List Obj) (ha : IsList s l a) (hp : ∀ x ∈ a, Storable x) (i j : Nat) (hi : i < a.length) (hj : j < a.length) :
    ∃ s', Invokes H n "table" s "swap" [.tab l, .int i, .int j] .nil s' ∧ IsList s' l (exchanged a i j) ∧ s'.globals = s.globals ∧ s'.scope = s.scope ∧ ∀ m, m ≠ l → s'.store[m]? = s.store[m]? := by
  obtain ⟨lt, k, slf, h1, _, _⟩ := hs
  obtain ⟨g, st, sc⟩ := s
  obtain ⟨f, h2, h3⟩ := h1.get (k := N.swap) (t := .fn [N.t, N.i, N.j] tableSwapBody [(Lang.self, .tab lt)]) (by simp [tableFns])
  obtain ⟨st', e1, a1, k1⟩ := swap_apply (H := H) (m := n) (g := g) (sc := sc) h2 ha (fun x hx => storable_plain (hp x hx)) (Sort.swap_ok hi hj)
  refine ⟨⟨g, st', sc⟩, ⟨f, ?_, e1⟩, by rw [exchanged_eq hi hj]; exact a1, rfl, rfl, k1⟩
  rw [show ascii "table" = N.table from by decide, show ascii "swap" = N.swap from by decide]
  unfold globalVal
  rw [h1.glob]
  exact h3 _

theorem cmp_number_body {H : Host} {n lt : Nat} {x y v : Obj} {g : List (Bytes × Obj)} {st : List Thing} (h : ∀ s, Lang.binary H .lte x y s = .ok v s) :
    Lang.exec H n tableCmpNumberBody ⟨g, st, .fn [(Lang.self, .tab lt), (N.a, x), (N.b, y)]⟩ = .ret v ⟨g, st, .fn [(Lang.self, .tab lt), (N.a, x), (N.b, y)]⟩ := by
  obtain ⟨run, hr⟩ := exec_eval H n
  rw [hr]
  exact ev_seq_ret (ev_ret (st := st) (env := []) rfl (ev_bin rfl rfl (ev_loc rfl) (ev_loc rfl) (h _)))

theorem cmp_number_apply {H : Host} {n lt f : Nat} {x y v : Obj} {s : St} (hf : s.store[f]? = some (.fn [N.a, N.b] tableCmpNumberBody [(Lang.self, .tab lt)])) (h : ∀ s, Lang.binary H .lte x y s = .ok v s) :
    Lang.apply H.lib (Lang.exec H n) (.clo f) [x, y] s = .ok v s :=
  apply_fn (s' := ⟨s.globals, s.store, .fn [(Lang.self, .tab lt), (N.a, x), (N.b, y)]⟩) hf (lim (by simp)) rfl (lim (by simp)) (cmp_number_body h)

theorem lte_floats {H : Host} {x y : Flt} {s : St} [Decidable (Less y x)] : Lang.binary H .lte (.flt x) (.flt y) s = .ok (.int (if Less y x then 0 else 1)) s := by
  show Lang.result (cmpV H.env (fun c => decide (c ≤ 0)) (.flt x) (.flt y)) s = _
  have : cmpV H.env (fun c => decide (c ≤ 0)) (.flt x) (.flt y) = some (.ok (.int (if Less y x then 0 else 1))) := by
    show some (Res.ok (ofBool (decide (Obj.cmpF x y = 2) || decide (Obj.cmpF x y ≤ 0)))) = _
    congr 2
    unfold Obj.cmpF ofBool
    by_cases h1 : Obj.ltF x y = true
    · have h2 := less_asymm ((ltF_less _ _).mp h1)
      rw [if_pos h1, if_neg h2]
      rfl
    · by_cases h2 : Obj.ltF y x = true
      · rw [if_neg h1, if_pos h2, if_pos ((ltF_less _ _).mp h2)]
        rfl
      · rw [if_neg h1, if_neg h2, if_neg (fun h => h2 ((ltF_less _ _).mpr h))]
        rfl
  rw [this]
  rfl

/-- **C70**: `table.cmp_number(a, b)` is 1 if `a` is at most `b`, otherwise 0 (and not nil, as the script's comment has it), for integers. -/
theorem C70_cmp_integers (H : Host) (n : Nat) (s : St) (hs : TableReady s) (a b : Int) : Invokes H n "table" s "cmp_number" [.int a, .int b] (.int (if a ≤ b then 1 else 0)) s := by
  obtain ⟨lt, k, slf, h1, _, _⟩ := hs
  refine invokes_of h1 (k := N.cmp_number) (t := .fn [N.a, N.b] tableCmpNumberBody [(Lang.self, .tab lt)]) (by decide) (by simp [tableFns]) fun f hf => ?_
  refine cmp_number_apply hf fun s => ev_lte.trans ?_
  by_cases h : a ≤ b <;> simp [h, ofBool]

open Classical in
/-- **C70**: the same for floats; NaN is at most everything, and everything at most NaN. -/
theorem C70_cmp_floats (H : Host) (n : Nat) (s : St) (hs : TableReady s) (a b : Flt) : Invokes H n "table" s "cmp_number" [.flt a, .flt b] (.int (if Less b a then 0 else 1)) s := by
  obtain ⟨lt, k, slf, h1, _, _⟩ := hs
  refine invokes_of h1 (k := N.cmp_number) (t := .fn [N.a, N.b] tableCmpNumberBody [(Lang.self, .tab lt)]) (by decide) (by simp [tableFns]) fun f hf => ?_
  exact cmp_number_apply hf fun s => lte_floats

/-- **C70**: `table.sort(t, cmp)` for a comparator that answers, by the truth of its value, a total preorder `le` of the elements: the table holds the
same elements in this order.  Every other location that existed is unchanged, and so are the global variables but three. -/
theorem C70_sort (E : Env) (strtof : Bytes → Option Nat) (nc n : Nat) (s : St) (hs : TableReady s) (l f : Nat) (a : List Obj) (ha : IsList s l a) (hl : a.length < 2147483647) (hp : ∀ x ∈ a, Storable x)
    (D : Obj → Prop) (hD : ∀ x ∈ a, D x) (le : Obj → Obj → Bool) (hc : Compares ⟨E, strtof, stdLib⟩ nc s.globals s.store l f D le) (htot : ∀ x y, D x → D y → le x y = true ∨ le y x = true)
    (htr : ∀ x y z, D x → D y → D z → le x y = true → le y z = true → le x z = true) (hn : a.length + nc + 3 ≤ n) :
    ∃ a' s', Invokes ⟨E, strtof, stdLib⟩ n "table" s "sort" [.tab l, .clo f] .nil s' ∧ IsList s' l a' ∧ a'.Perm a ∧ a'.Pairwise (fun x y => le x y = true) ∧ s'.scope = s.scope ∧
      (∀ i < s.store.length, i ≠ l → s'.store[i]? = s.store[i]?) ∧ ∀ x, x ∉ ["pivot", "partition", "qsort"].map ascii → globalVal x s' = globalVal x s := by
  obtain ⟨lt, kz, slf, h1, h2, h3⟩ := hs
  obtain ⟨g, st, sc⟩ := s
  obtain ⟨le', q1, q2, q3⟩ := extend htot htr
  have hc' : Compares ⟨E, strtof, stdLib⟩ nc g st l f D le' := fun n hn s hs x y hx hy => by
    obtain ⟨v, v1, v2⟩ := hc n hn s hs x y hx hy
    exact ⟨v, v1, by rw [v2, q1 x y hx hy]⟩
  obtain ⟨ks, k1, k2⟩ := h1.get (k := N.sort) (t := .fn [N.t, N.cmp] tableSortBody [(Lang.self, .tab lt)]) (by simp [tableFns])
  obtain ⟨a', g', st', r1, r2, r3, r4, r5, _, _⟩ := sort_apply (sc := sc) rfl hc' q2 q3 h1 h2 h3 k1 ha hl (fun x hx => storable_plain (hp x hx)) hD hn
  have hlec : ∀ x y, cmpOf le' x y ≤ 0 ↔ le' x y = true := by
    intro x y
    unfold cmpOf
    cases le' x y <;> simp
  obtain ⟨b, b1, b2, b3⟩ := Sort.sort_spec (cmpOf le')
    (fun x y => by rcases q2 x y with h | h; exact .inl (by unfold cmpOf; rw [if_pos h]; decide); exact .inr ((hlec _ _).mpr h))
    (fun x y z h1 h2 => (hlec _ _).mpr (q3 x y z ((hlec _ _).mp h1) ((hlec _ _).mp h2))) a
  rw [r1] at b1
  obtain rfl : a' = b := by injection b1
  refine ⟨a', ⟨g', st', sc⟩, ⟨ks, ?_, r2⟩, r3, b2, ?_, rfl, r4, ?_⟩
  · rw [show ascii "table" = N.table from by decide, show ascii "sort" = N.sort from by decide]
    unfold globalVal
    rw [h1.glob]
    exact k2 _
  · refine List.Pairwise.imp_of_mem ?_ b3
    intro x y hx hy h
    rw [← q1 x y (hD x (b2.mem_iff.mp hx)) (hD y (b2.mem_iff.mp hy))]
    exact (hlec _ _).mp h
  · intro x hx
    rw [show ["pivot", "partition", "qsort"].map ascii = [N.pivot, N.partition, N.qsort] from by decide] at hx
    simp only [List.mem_cons, List.not_mem_nil, or_false, not_or] at hx
    exact globalVal_of (r5 x hx.1 hx.2.1 hx.2.2)

/-- **C70**, a deviation: `table.sort` assigns the global variables `partition` and `qsort`; whatever the program had there is lost, also if the
table has nothing to sort. -/
theorem C70_sort_leaks (E : Env) (strtof : Bytes → Option Nat) (nc n : Nat) (s : St) (hs : TableReady s) (l f : Nat) (a : List Obj) (ha : IsList s l a) (hl : a.length < 2147483647) (hp : ∀ x ∈ a, Storable x)
    (D : Obj → Prop) (hD : ∀ x ∈ a, D x) (le : Obj → Obj → Bool) (hc : Compares ⟨E, strtof, stdLib⟩ nc s.globals s.store l f D le) (htot : ∀ x y, D x → D y → le x y = true ∨ le y x = true)
    (htr : ∀ x y z, D x → D y → D z → le x y = true → le y z = true → le x z = true) (hn : a.length + nc + 3 ≤ n) :
    ∃ s', Invokes ⟨E, strtof, stdLib⟩ n "table" s "sort" [.tab l, .clo f] .nil s' ∧ globalVal (ascii "partition") s' = .clo s.store.length ∧ globalVal (ascii "qsort") s' = .clo (s.store.length + 1) := by
  obtain ⟨lt, kz, slf, h1, h2, h3⟩ := hs
  obtain ⟨g, st, sc⟩ := s
  obtain ⟨le', q1, q2, q3⟩ := extend htot htr
  have hc' : Compares ⟨E, strtof, stdLib⟩ nc g st l f D le' := fun n hn s hs x y hx hy => by
    obtain ⟨v, v1, v2⟩ := hc n hn s hs x y hx hy
    exact ⟨v, v1, by rw [v2, q1 x y hx hy]⟩
  obtain ⟨ks, k1, k2⟩ := h1.get (k := N.sort) (t := .fn [N.t, N.cmp] tableSortBody [(Lang.self, .tab lt)]) (by simp [tableFns])
  obtain ⟨a', g', st', r1, r2, r3, r4, r5, r6, r7⟩ := sort_apply (sc := sc) rfl hc' q2 q3 h1 h2 h3 k1 ha hl (fun x hx => storable_plain (hp x hx)) hD hn
  refine ⟨⟨g', st', sc⟩, ⟨ks, ?_, r2⟩, ?_, ?_⟩
  · rw [show ascii "table" = N.table from by decide, show ascii "sort" = N.sort from by decide]
    unfold globalVal
    rw [h1.glob]
    exact k2 _
  · rw [show ascii "partition" = N.partition from by decide]
    unfold globalVal
    rw [r6]
    rfl
  · rw [show ascii "qsort" = N.qsort from by decide]
    unfold globalVal
    rw [r7]
    rfl

/-- The comparator of the script, in every state of a sorting. -/
theorem cmp_number_compares {H : Host} {s : St} {l lt : Nat} {a : List Obj} (h : HasFns N.table s.globals s.store lt (tableFns lt)) (ha : IsList s l a) {D : Obj → Prop} {le : Obj → Obj → Bool}
    (hb : ∀ x y, D x → D y → ∃ v, (∀ s, Lang.binary H .lte x y s = .ok v s) ∧ truth v = le x y) :
    ∃ f, Lang.tabGet (globalVal (ascii "table") s) (.str 0 (ascii "cmp_number")) s = .ok (.clo f) s ∧ Compares H 0 s.globals s.store l f D le := by
  obtain ⟨f, h1, h2⟩ := h.get (k := N.cmp_number) (t := .fn [N.a, N.b] tableCmpNumberBody [(Lang.self, .tab lt)]) (by simp [tableFns])
  refine ⟨f, ?_, fun n _ s' hs x y hx hy => ?_⟩
  · rw [show ascii "table" = N.table from by decide, show ascii "cmp_number" = N.cmp_number from by decide]
    unfold globalVal
    rw [h.glob]
    exact h2 _
  · obtain ⟨v, v1, v2⟩ := hb x y hx hy
    refine ⟨v, cmp_number_apply (lt := lt) ?_ v1, v2⟩
    rw [hs.old f (List.getElem?_eq_some_iff.mp h1).1 (by rintro rfl; obtain ⟨es, h3, _⟩ := ha; rw [h3] at h1; cases h1), h1]

/-- **C70**: `table.sort(t, table.cmp_number)` puts integers in ascending order. -/
theorem C70_sort_integers (E : Env) (strtof : Bytes → Option Nat) (n : Nat) (s : St) (hs : TableReady s) (l : Nat) (a : List Int) (ha : IsList s l (a.map .int)) (hl : a.length < 2147483647) (hn : a.length + 3 ≤ n) :
    ∃ (f : Nat) (b : List Int) (s' : St), Lang.tabGet (globalVal (ascii "table") s) (.str 0 (ascii "cmp_number")) s = .ok (.clo f) s ∧ Invokes ⟨E, strtof, stdLib⟩ n "table" s "sort" [.tab l, .clo f] .nil s' ∧
      IsList s' l (b.map .int) ∧ b.Perm a ∧ b.Pairwise (· ≤ ·) := by
  have hs' := hs
  obtain ⟨lt, kz, slf, h1, h2, h3⟩ := hs'
  let le : Obj → Obj → Bool := fun x y => match x, y with | .int a, .int b => decide (a ≤ b) | _, _ => false
  let D : Obj → Prop := fun x => ∃ i, x = .int i
  obtain ⟨f, f1, f2⟩ := cmp_number_compares (H := ⟨E, strtof, stdLib⟩) (D := D) (le := le) h1 ha (by
    rintro _ _ ⟨i, rfl⟩ ⟨j, rfl⟩
    exact ⟨_, fun s => ev_lte, by rw [truth_ofBool]⟩)
  obtain ⟨a', s', r1, r2, r3, r4, _⟩ := C70_sort E strtof 0 n s hs l f (a.map .int) ha (by simpa using hl) (by
      intro x hx
      obtain ⟨i, _, rfl⟩ := List.mem_map.mp hx
      exact ⟨by simp, by simp⟩) D (by
      intro x hx
      obtain ⟨i, _, rfl⟩ := List.mem_map.mp hx
      exact ⟨i, rfl⟩) le f2 (by
      rintro _ _ ⟨i, rfl⟩ ⟨j, rfl⟩
      simp only [le, decide_eq_true_eq]
      omega) (by
      rintro _ _ _ ⟨i, rfl⟩ ⟨j, rfl⟩ ⟨k, rfl⟩
      simp only [le, decide_eq_true_eq]
      omega) (by simpa using hn)
  obtain ⟨b, rfl⟩ := of_images (c := Obj.int) a' (fun x hx => by
    obtain ⟨i, _, h⟩ := List.mem_map.mp (r3.mem_iff.mp hx)
    exact ⟨i, h.symm⟩)
  refine ⟨f, b, s', f1, r1, r2, ?_, ?_⟩
  · exact (List.map_perm_map_iff (fun x y h => by injection h)).mp r3
  · rw [List.pairwise_map] at r4
    exact r4.imp fun h => of_decide_eq_true h

open Classical in
/-- **C70**: `table.sort(t, table.cmp_number)` puts floats in ascending order, if there is no NaN. -/
theorem C70_sort_floats (E : Env) (strtof : Bytes → Option Nat) (n : Nat) (s : St) (hs : TableReady s) (l : Nat) (a : List Flt) (ha : IsList s l (a.map .flt)) (hl : a.length < 2147483647) (hnan : .nan ∉ a)
    (hn : a.length + 3 ≤ n) :
    ∃ (f : Nat) (b : List Flt) (s' : St), Lang.tabGet (globalVal (ascii "table") s) (.str 0 (ascii "cmp_number")) s = .ok (.clo f) s ∧ Invokes ⟨E, strtof, stdLib⟩ n "table" s "sort" [.tab l, .clo f] .nil s' ∧
      IsList s' l (b.map .flt) ∧ b.Perm a ∧ b.Pairwise (fun x y => ¬ Less y x) := by
  have hs' := hs
  obtain ⟨lt, kz, slf, h1, h2, h3⟩ := hs'
  let le : Obj → Obj → Bool := fun x y => match x, y with | .flt a, .flt b => decide (¬ Less b a) | _, _ => false
  let D : Obj → Prop := fun x => ∃ i, x = .flt i ∧ i ≠ .nan
  obtain ⟨f, f1, f2⟩ := cmp_number_compares (H := ⟨E, strtof, stdLib⟩) (D := D) (le := le) h1 ha (by
    rintro _ _ ⟨i, rfl, _⟩ ⟨j, rfl, _⟩
    refine ⟨_, fun s => lte_floats, ?_⟩
    by_cases h : Less j i
    · rw [if_pos h]
      show false = decide _
      simp [h]
    · rw [if_neg h]
      show true = decide _
      simp [h])
  obtain ⟨a', s', r1, r2, r3, r4, _⟩ := C70_sort E strtof 0 n s hs l f (a.map .flt) ha (by simpa using hl) (by
      intro x hx
      obtain ⟨i, _, rfl⟩ := List.mem_map.mp hx
      exact ⟨by simp, by simp⟩) D (by
      intro x hx
      obtain ⟨i, hi, rfl⟩ := List.mem_map.mp hx
      exact ⟨i, rfl, by rintro rfl; exact hnan hi⟩) le f2 (by
      rintro _ _ ⟨i, rfl, _⟩ ⟨j, rfl, _⟩
      simp only [le, decide_eq_true_eq]
      by_cases h : Less j i
      · exact .inr (less_asymm h)
      · exact .inl h) (by
      rintro _ _ _ ⟨i, rfl, hi⟩ ⟨j, rfl, hj⟩ ⟨k, rfl, hk⟩
      simp only [le, decide_eq_true_eq]
      exact fun p q => less_trans hj p q hi hk) (by simpa using hn)
  obtain ⟨b, rfl⟩ := of_images (c := Obj.flt) a' (fun x hx => by
    obtain ⟨i, _, h⟩ := List.mem_map.mp (r3.mem_iff.mp hx)
    exact ⟨i, h.symm⟩)
  refine ⟨f, b, s', f1, r1, r2, ?_, ?_⟩
  · exact (List.map_perm_map_iff (fun x y h => by injection h)).mp r3
  · rw [List.pairwise_map] at r4
    exact r4.imp fun h => of_decide_eq_true h

/-- **C70**, a deviation: `table.shuffle` calls `table.swap(t, i, j)` with `j` from `math.rng.uniform(i, size(t))`, which may be the size of the table
(`C47_top`).  Then the element `i` is taken out of the list: the table holds no list any more. -/
theorem C70_swap_end (H : Host) (n : Nat) (s : St) (hs : TableReady s) (l : Nat) (a : List Obj) (ha : IsList s l a) (hp : ∀ x ∈ a, Storable x) (i : Nat) (hi : i < a.length) :
    ∃ s', Invokes H n "table" s "swap" [.tab l, .int i, .int a.length] .nil s' ∧ ∀ b, ¬ IsList s' l b := by
  obtain ⟨lt, k, slf, h1, _, _⟩ := hs
  obtain ⟨g, st, sc⟩ := s
  obtain ⟨f, h2, h3⟩ := h1.get (k := N.swap) (t := .fn [N.t, N.i, N.j] tableSwapBody [(Lang.self, .tab lt)]) (by simp [tableFns])
  obtain ⟨es, e1, e2⟩ := ha
  have hlt : l < st.length := (List.getElem?_eq_some_iff.mp e1).1
  have hx : a[i]? = some a[i] := List.getElem?_eq_getElem hi
  have hv : plainVal a[i] = true := storable_plain (hp _ (List.getElem_mem hi))
  obtain ⟨run, hr⟩ := exec_eval H n
  have hne : ∀ es' : List (Obj × Obj), (∀ e ∈ es', e ∈ es) → ∀ z : Int, (Lang.sameKind (.int z) (.int z) && es'.all fun e => Lang.sameKind (.int z) e.1) = true := by
    intro es' hs z
    have := cells_kind e2 z
    rw [Bool.and_eq_true, List.all_eq_true] at this ⊢
    exact ⟨rfl, fun e he => this.2 e (hs e he)⟩
  have hnone : Lang.entryOf (.int a.length) es = none := by
    cases hh : Lang.entryOf (.int a.length) es with
    | none => rfl
    | some v =>
      have : ∀ es' : List (Obj × Obj), Lang.entryOf (.int a.length) es' = some v → (.int a.length, v) ∈ es' := by
        intro es'
        induction es' with
        | nil => intro h; cases h
        | cons e es' ih =>
          intro h
          have h : (if e.1 = Obj.int a.length then some e.2 else Lang.entryOf (.int a.length) es') = some v := h
          split at h
          · rename_i he
            rw [← he, ← Option.some.inj h]
            exact List.mem_cons_self
          · exact List.mem_cons_of_mem _ (ih h)
      obtain ⟨j, j1, j2⟩ := mem_cells.mp (e2.mem_iff.mp (this es hh))
      injection j1 with j1
      have := (List.getElem?_eq_some_iff.mp j2).1
      omega
  let env : List (Bytes × Obj) := [(Lang.self, .tab lt), (N.t, .tab l), (N.i, .int i), (N.j, .int a.length), (N.k, a[i])]
  let es1 := es.filter (fun e => e.1 ≠ .int i)
  let es2 := es1.filter (fun e => e.1 ≠ .int a.length) ++ [((.int a.length : Obj), a[i])]
  have look1 : ∀ (st' : List Thing) (es' : List (Obj × Obj)) (sc : Scope), st'[l]? = some (.tab es') → Lang.look l ⟨g, st', sc⟩ = .ok (.tab es') ⟨g, st', sc⟩ := by
    intro st' es' sc h
    unfold Lang.look
    rw [h]
  have g2 : Lang.tabGet (.tab l) (.int a.length) ⟨g, st, .fn env⟩ = .ok .nil ⟨g, st, .fn env⟩ := by
    refine (ev_bind (look1 st es _ e1)).trans ?_
    dsimp only
    rw [if_pos (hne es (fun _ h => h) _), hnone]
    rfl
  have p1 : Lang.tabPut (.tab l) (.int i) .nil ⟨g, st, .fn env⟩ = .ok () ⟨g, st.set l (.tab es1), .fn env⟩ := by
    refine (ev_bind (look1 st es _ e1)).trans ?_
    dsimp only
    rw [if_pos (show isKey (.int i) = true from rfl), if_pos (hne es (fun _ h => h) _)]
    rfl
  have p2 : Lang.tabPut (.tab l) (.int a.length) a[i] ⟨g, st.set l (.tab es1), .fn env⟩ = .ok () ⟨g, (st.set l (.tab es1)).set l (.tab es2), .fn env⟩ := by
    refine (ev_bind (look1 (st.set l (.tab es1)) es1 _ (List.getElem?_set_self hlt))).trans ?_
    dsimp only
    rw [if_pos (show isKey (.int a.length) = true from rfl), if_pos (hne es1 (fun _ h => List.mem_of_mem_filter h) _)]
    generalize hw : a[i] = w at hv
    cases w with
    | nil => cases hv
    | clo f => cases hv
    | _ => simp only [es2, hw]; rfl
  refine ⟨⟨g, (st.set l (.tab es1)).set l (.tab es2), sc⟩, ⟨f, ?_, ?_⟩, ?_⟩
  · rw [show ascii "table" = N.table from by decide, show ascii "swap" = N.swap from by decide]
    unfold globalVal
    rw [h1.glob]
    exact h3 _
  · refine apply_end (s' := ⟨g, (st.set l (.tab es1)).set l (.tab es2), .fn [(Lang.self, .tab lt), (N.t, .tab l), (N.i, .int i), (N.j, .int a.length)]⟩) (ws := []) h2 (lim (by simp)) rfl (lim (by simp)) ?_
    rw [hr]
    refine ev_seq (p := false) ((ev_ifs rfl rfl (ev_bin rfl rfl (ev_loc rfl) (ev_loc rfl) ev_neq)).trans ?_) ev_skip
    rw [truth_ofBool, if_pos (by simp; omega)]
    refine ev_block (env' := env) ?_
    refine ev_seq (s1 := ⟨g, st, .fn env⟩) ?_ (ev_seq (s1 := ⟨g, st.set l (.tab es1), .fn env⟩) ?_ (ev_seq ?_ ev_skip))
    · exact ev_init (env' := [(Lang.self, .tab lt), (N.t, .tab l), (N.i, .int i), (N.j, .int a.length), (N.k, .nil)]) rfl (lim (by simp)) rfl (ev_index rfl rfl (ev_loc rfl) (ev_loc rfl) (arr_get ⟨es, e1, e2⟩ hx)) rfl
    · exact ev_setidx rfl rfl rfl (ev_loc rfl) (ev_loc rfl) (ev_index rfl rfl (ev_loc rfl) (ev_loc rfl) g2) p1
    · exact ev_setidx rfl rfl rfl (ev_loc rfl) (ev_loc rfl) (ev_loc rfl) p2
  · rintro b ⟨es', q1, q2⟩
    rw [List.getElem?_set_self (by simpa using hlt)] at q1
    obtain rfl : es2 = es' := by injection q1 with q1; injection q1
    have m1 : ((.int a.length : Obj), a[i]) ∈ es2 := by simp [es2]
    obtain ⟨j, j1, j2⟩ := mem_cells.mp (q2.mem_iff.mp m1)
    injection j1 with j1
    have hjb := (List.getElem?_eq_some_iff.mp j2).1
    have m2 : ((.int i : Obj), b[i]) ∈ es2 := q2.mem_iff.mpr (mem_cells.mpr ⟨i, rfl, List.getElem?_eq_getElem (by omega)⟩)
    rcases List.mem_append.mp m2 with m2 | m2
    · have := (List.mem_filter.mp (List.mem_filter.mp m2).1).2
      simp at this
    · rw [List.mem_singleton] at m2
      have := (Prod.mk.inj m2).1
      injection this with this
      omega

/-- There are states in which the script's functions are in their place: those after the script. -/
example (robot : Nat) (s0 : St) (ht : s0.scope = .top) : ∃ s1 s2, Lang.install robot s0 = .ok () s1 ∧ Lang.exec ⟨someEnv, someTools.strtof, stdLib⟩ 5 tableAst s1 = .ok [] s2 ∧ TableReady s2 := by
  obtain ⟨s1, h1, h2⟩ := C67_library robot s0
  obtain ⟨s2, h3, h4, _⟩ := C70_load someEnv someTools.strtof 5 robot s0 s1 h2 ht
  exact ⟨s1, s2, h1, h3, h4⟩

example : exchanged [.int 7, .int 8, .int 9] 0 2 = [.int 9, .int 8, .int 7] := by decide

/-! ### The text -/

/-- The text of the script, under any name, is the sequence of tokens of the syntax tree `tableAst`. -/
theorem C70_source (fs : FS) (act : List Bytes) (name : Bytes) : ∃ toks, Lexed fs act name 1 0 (tableBzz ++ [10]) toks true ∧
    (∀ t ∈ toks, t.fname = name ∧ t.type ≠ .eof ∧ t.line < 1000 ∧ t.col < 1000) ∧ sigToks toks ≠ [] ∧ Syn .stats (sigToks toks) tableAst := by
  obtain ⟨h1, h2, h3⟩ := table_read
  refine ⟨partToks name 1 0 tableParts, h1 ▸ parts_lexed fs act name tableParts 1 0 h2, ?_, ?_, ?_⟩
  · have : ∀ t ∈ partToks [] 1 0 tableParts, t.type ≠ .eof ∧ t.line < 1000 ∧ t.col < 1000 := by decide +kernel
    intro t ht
    rw [partToks_name] at ht
    obtain ⟨t', h, rfl⟩ := List.mem_map.mp ht
    exact ⟨rfl, this t' h⟩
  · rw [partToks_name, sigToks_name]
    intro h
    rw [h] at h3
    revert h3
    decide +kernel
  · rw [partToks_name, sigToks_name]
    exact Lang.astOf_sound h3

theorem table_program (T : Tools) : Link.Program T [] tableAst where
  whole := rfl
  legal := legalB_sound _ _ (by decide +kernel)
  once := by intro d hd; cases hd
  nums := by
    have h : ∀ (t : Bytes) (v : Int), t ≠ [] → Clean t → 46 ∉ t → Lang.decimal t = some v → v.natAbs < 18446744073709551616 → Link.NumOk T t :=
      fun t v h1 h2 h3 h4 h5 => ⟨h1, h2, fun h => absurd h h3, fun _ => ⟨v, h4, h5⟩⟩
    have hc : ∀ t ∈ consts tableAst, t = N.d0 ∨ t = N.d1 := by decide +kernel
    intro t ht
    rcases hc t ht with rfl | rfl
    · exact h _ 0 (by decide) (by unfold Clean; decide) (by decide) (by decide) (by decide)
    · exact h _ 1 (by decide) (by unfold Clean; decide) (by decide) (by decide) (by decide)
  strs := by
    show ∀ s ∈ Link.stringsOf [] tableAst, ∀ c ∈ s, c ≠ 0 ∧ c ≠ 10
    decide +kernel
  count := by decide +kernel
  small := by decide +kernel

/-- **C70**: the script on the machine.  The file is compiled, assembled and loaded with the library; its execution ends with an empty stack, and the
machine holds a state in which the functions are in the table `table`, unless it comes to have more than 65533 different strings. -/
theorem C70_machine (fs : FS) (T : Tools) (order : List (Nat × Bytes) → List (Nat × Bytes)) (ho : ∀ l, (order l).Perm l) (fname path : Bytes) (hf : fs fname = some (path, tableBzz))
    (hp : ∀ x ∈ path, x ≠ 0 ∧ x ≠ 10 ∧ x ≠ 44 ∧ x ≠ 124) (hl : ∀ x, path.getLast? = some x → isSpace x = false)
    (E : Env) (other : CFuns) (he : E.endian = T.endian) (hF : FOk other) (hE : Obj.StrcmpLaw E.sc) (robot : Nat) (hrob : robot < 65536) :
    ∃ file code dbg vm1, (∃ N, ∀ m ≥ N, compile fs m [] fname = .ok (some file)) ∧ asm T order file = .ok (some (code, dbg)) ∧
      (∃ N, ∀ m ≥ N, setBcode E (stdFuns E other) m robot code VM.new = .ok vm1) ∧
      ((∃ k vm', stepN E (stdFuns E other) k vm1 = .ok vm' ∧ 65533 < vm'.strings.id2str.length) ∨
        ∃ vm2 s, (∃ N, ∀ m ≥ N, VM.run E (stdFuns E other) m vm1 = .ok vm2) ∧ vm2.state = .done ∧ vm2.stack = [] ∧ Held (Link.stringsOf [] tableAst) s vm2 ∧ TableReady s) := by
  obtain ⟨toks, hx, ht, hne, hs⟩ := C70_source fs [path] path
  obtain ⟨file, code, dbg, h1, h2, h3, h4⟩ := C67_program fs T order ho [] fname path tableBzz hf toks true hx (by
      intro t htt
      obtain ⟨k1, k2, k3, k4⟩ := ht t htt
      refine ⟨?_, ?_, ?_, ?_⟩
      · show t.line < _
        omega
      · show t.col < _
        omega
      · unfold Parser.mark
        rw [if_neg k2, k1]
        exact hp
      · unfold Parser.mark
        rw [if_neg k2, k1]
        exact hl)
    _ rfl hne tableAst hs (table_program T) (by decide +kernel) E other he hF hE robot hrob
  obtain ⟨s1, vm1, i1, h5, _, _, _, _, _, h7⟩ := h4 (Nat.le_trans h3 (by decide +kernel)) ⟨[], [], .top⟩ rfl
  obtain ⟨s1', j1, j2⟩ := C67_library robot ⟨[], [], .top⟩
  rw [i1] at j1
  obtain rfl : s1 = s1' := by injection j1
  refine ⟨file, code, dbg, vm1, h1, h2, h5, ?_⟩
  obtain ⟨s2, i2, i3, _⟩ := C70_load E T.strtof 0 robot _ s1 j2 rfl
  rcases h7 0 with h7 | h7
  · exact .inl h7
  rw [i2] at h7
  obtain ⟨vm2, h8, h9, h10, _, _, h11⟩ := h7
  exact .inr ⟨vm2, s2, h8, h9, h10, h11, i3⟩

/-- Such a file is found under its name, for instance. -/
example : (fun n => if n = ascii "table.bzz" then some (ascii "/usr/table.bzz", tableBzz) else none : FS) (ascii "table.bzz") = some (ascii "/usr/table.bzz", tableBzz) := if_pos rfl

end Buzz.Props
