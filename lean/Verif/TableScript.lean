import Verif.BzzTable
import Verif.Script
import Verif.Sort

/-
The meaning of the functions of src/include/table.bzz.
-/
namespace Buzz.Props

open Buzz.Msg Buzz.VM
open Buzz.Lang

/-! ### Evaluation -/

section Eval

variable {H : Host} {n : Nat} {run : Ast → Ev (List Obj)} {g : List (Bytes × Obj)} {st : List Thing} {env : List (Bytes × Obj)}

theorem valueOf_filter {x y : Bytes} (h : y ≠ x) : ∀ g : List (Bytes × Obj), valueOf y (g.filter (fun e => e.1 ≠ x)) = valueOf y g
  | [] => rfl
  | (a, b) :: g => by
    have ih := valueOf_filter h g
    by_cases ha : a = x
    · rw [List.filter_cons_of_neg (by simp [ha]), ih]
      show _ = if a = y then some b else valueOf y g
      rw [if_neg (fun h' => h (by rw [← h', ha]))]
    · rw [List.filter_cons_of_pos (by simp [ha])]
      show (if a = y then some b else valueOf y (g.filter _)) = if a = y then some b else valueOf y g
      rw [ih]

/-- The global variables after an assignment. -/
def putG (x : Bytes) (v : Obj) (g : List (Bytes × Obj)) : List (Bytes × Obj) := (x, v) :: g.filter (fun e => e.1 ≠ x)

theorem putG_same (x : Bytes) (v : Obj) (g : List (Bytes × Obj)) : valueOf x (putG x v g) = some v := if_pos rfl

theorem putG_ne {x y : Bytes} (h : y ≠ x) (v : Obj) (g : List (Bytes × Obj)) : valueOf y (putG x v g) = valueOf y g :=
  (if_neg (Ne.symm h)).trans (valueOf_filter h g)

theorem ev_glob {x : Bytes} {v : Obj} (he : valueOf x env = none) (hg : valueOf x g = some v) : eval H n run (.id x) false ⟨g, st, .fn env⟩ = .ok [v] ⟨g, st, .fn env⟩ := by
  refine ev_id ?_
  unfold getVar
  dsimp only
  rw [he]
  show Out.ok (globalVal _ _) _ = _
  unfold globalVal
  rw [hg]
  rfl

theorem ev_index {r e : Ast} {t k v : Obj} {s s1 s2 : St} (dr : decls r = []) (de : decls e = []) (hr : eval H n run r false s = .ok [t] s1) (he : eval H n run e false s1 = .ok [k] s2)
    (h : tabGet t k s2 = .ok v s2) : eval H n run (.index r e) false s = .ok [v] s2 := by
  rw [eval]
  refine (ev_bind (ev_one dr hr)).trans ((ev_bind (ev_one de he)).trans ?_)
  rw [if_neg (by simp)]
  exact (ev_bind h).trans rfl

/-- Assigning a global variable in a function. -/
theorem ev_gset {x : Bytes} {e : Ast} {v : Obj} {p : Bool} {g' : List (Bytes × Obj)} {st' : List Thing} {env' : List (Bytes × Obj)} {s : St} (de : decls e = [])
    (h : eval H n run e false s = .ok [v] ⟨g', st', .fn env'⟩) (hv : valueOf x env' = none) :
    eval H n run (.assign (.id x) e) p s = .ok [] ⟨putG x v g', st', .fn env'⟩ := by
  rw [eval, if_pos (show isRef (.id x) = true from rfl)]
  have h0 : eval H n run (.id x) true s = .ok [] s := by rw [eval]; rfl
  refine (ev_bind h0).trans ((ev_bind (ev_one de h)).trans ?_)
  have h2 : setVar x v ⟨g', st', .fn env'⟩ = .ok () ⟨putG x v g', st', .fn env'⟩ := by
    show (if (valueOf x env').isSome then _ else _) = _
    rw [if_neg (by rw [hv]; simp)]
    rfl
  exact (ev_bind h2).trans rfl

theorem ev_run {r : Ast} {v : Obj} {p : Bool} {s s1 : St} (dr : decls r = []) (h : eval H n run r false s = .ok [v] s1) : eval H n run (.run r) p s = .ok [] s1 := by
  rw [eval]
  exact (ev_bind (ev_one dr h)).trans rfl

theorem ev_lam {ps : List Bytes} {b : Ast} {p : Bool} (h : (env.map (·.1) ++ ps).Nodup) :
    eval H n run (.lam ps b) p ⟨g, st, .fn env⟩ = .ok [.clo st.length] ⟨g, st ++ [.fn ps b env], .fn env⟩ := by
  rw [eval]
  have : closure ps b ⟨g, st, .fn env⟩ = .ok (.clo st.length) ⟨g, st ++ [.fn ps b env], .fn env⟩ := by
    unfold closure
    dsimp only
    rw [if_pos h]
    rfl
  exact (ev_bind this).trans rfl

/-- A function of the program that returns no value. -/
theorem apply_end {f : Nat} {ps : List Bytes} {b : Ast} {env : List (Bytes × Obj)} {vs ws : List Obj} {s s' : St} {lib : Lib} (hf : s.store[f]? = some (.fn ps b env))
    (hl : vs.length < limit) (hn : vs.length = ps.length) (hs : env.length + ps.length < limit)
    (h : run b { s with scope := .fn (env ++ ps.zip vs) } = .ok ws s') : apply lib run (.clo f) vs s = .ok .nil { s' with scope := s.scope } := by
  unfold apply
  rw [if_neg (by omega)]
  have h1 : look f s = .ok (.fn ps b env) s := by
    unfold look
    rw [hf]
  refine (ev_bind h1).trans ?_
  show (if vs.length = ps.length ∧ env.length + ps.length < limit then inFunction (env ++ ps.zip vs) (run b) else odd) s = _
  rw [if_pos ⟨hn, hs⟩]
  unfold inFunction
  rw [h]

/-- A function of the host. -/
theorem apply_lib {f k : Nat} {env vs : List Obj} {v : Obj} {s s' : St} {lib : Lib} (hf : s.store[f]? = some (.host k env)) (hl : vs.length < limit)
    (h : lib k (env ++ vs) { s with scope := .top } = .ok v s') : apply lib run (.clo f) vs s = .ok v { s' with scope := s.scope } := by
  unfold apply
  rw [if_neg (by omega)]
  have h1 : look f s = .ok (.host k env) s := by
    unfold look
    rw [hf]
  refine (ev_bind h1).trans ?_
  show (match (lib k (env ++ vs)) { s with scope := .top } with | .ok v s' => Out.ok v { s' with scope := s.scope } | .err e => .err e | _ => .odd) = _
  rw [h]

theorem ev_neq {a b : Int} {s : St} : binary H .neq (.int a) (.int b) s = .ok (ofBool (decide (a ≠ b))) s := by
  refine binary_int ?_
  show some (Res.ok (ofBool (decide (Obj.cmpI a b = 2) || decide (Obj.cmpI a b ≠ 0)))) = _
  rw [decide_eq_false (cmpI_ne2 a b), Bool.false_or]
  congr 4
  unfold Obj.cmpI
  simp only [eq_iff_iff]
  split
  · simp; omega
  · split
    · simp; omega
    · simp; omega

theorem ev_lte {a b : Int} {s : St} : binary H .lte (.int a) (.int b) s = .ok (ofBool (decide (a ≤ b))) s := by
  refine binary_int ?_
  show some (Res.ok (ofBool (decide (Obj.cmpI a b = 2) || decide (Obj.cmpI a b ≤ 0)))) = _
  rw [decide_eq_false (cmpI_ne2 a b), Bool.false_or]
  congr 4
  unfold Obj.cmpI
  simp only [eq_iff_iff]
  split
  · simp; omega
  · split
    · simp; omega
    · simp; omega

end Eval

/-! ### Arrays -/

/-- The entries of the table of a list: element `i` under the key `i`. -/
def cells (a : List Obj) : List (Obj × Obj) := a.zipIdx.map fun e => (.int (e.2 : Nat), e.1)

/-- The table at `l` holds the list `a`. -/
def Arr (st : List Thing) (l : Nat) (a : List Obj) : Prop := ∃ es, st[l]? = some (.tab es) ∧ es.Perm (cells a)

/-- Neither nil nor a function. -/
def plainVal : Obj → Bool
  | .nil => false
  | .clo _ => false
  | _ => true

theorem mem_cells {a : List Obj} {k v : Obj} : (k, v) ∈ cells a ↔ ∃ i : Nat, k = .int i ∧ a[i]? = some v := by
  unfold cells
  rw [List.mem_map]
  constructor
  · rintro ⟨⟨x, i⟩, h1, h2⟩
    obtain ⟨rfl, rfl⟩ := Prod.mk.inj h2
    refine ⟨i, rfl, ?_⟩
    simpa [List.mem_zipIdx_iff_getElem?] using h1
  · rintro ⟨i, rfl, h⟩
    exact ⟨(v, i), by simpa [List.mem_zipIdx_iff_getElem?] using h, rfl⟩

theorem cells_nodup (a : List Obj) : ((cells a).map (·.1)).Nodup := by
  have : (cells a).map (·.1) = (List.range a.length).map (fun i : Nat => Obj.int i) := by
    unfold cells
    rw [List.map_map, List.range_eq_range', ← List.zipIdx_map_snd 0 a, List.map_map]
    rfl
  rw [this]
  refine List.Nodup.map ?_ List.nodup_range
  intro i j h
  injection h with h
  omega

theorem entryOf_mem {k v : Obj} : ∀ {es : List (Obj × Obj)}, (es.map (·.1)).Nodup → (k, v) ∈ es → entryOf k es = some v
  | [], _, h => by cases h
  | (a, b) :: es, hn, h => by
    rw [List.map_cons, List.nodup_cons] at hn
    show (if a = k then some b else entryOf k es) = _
    rcases List.mem_cons.mp h with h | h
    · obtain ⟨rfl, rfl⟩ := Prod.mk.inj h
      rw [if_pos rfl]
    · rw [if_neg (by rintro rfl; exact hn.1 (List.mem_map.mpr ⟨_, h, rfl⟩))]
      exact entryOf_mem hn.2 h

theorem cells_kind {es : List (Obj × Obj)} {a : List Obj} (h : es.Perm (cells a)) (i : Int) : (sameKind (.int i) (.int i) && es.all fun e => sameKind (.int i) e.1) = true := by
  rw [Bool.and_eq_true]
  refine ⟨rfl, List.all_eq_true.mpr ?_⟩
  rintro ⟨k, v⟩ he
  obtain ⟨j, rfl, _⟩ := mem_cells.mp (h.mem_iff.mp he)
  rfl

theorem perm_keys {es : List (Obj × Obj)} {a : List Obj} (h : es.Perm (cells a)) : (es.map (·.1)).Nodup := (h.map _).nodup_iff.mpr (cells_nodup a)

/-- Reading an element. -/
theorem arr_get {g : List (Bytes × Obj)} {st : List Thing} {l : Nat} {a : List Obj} {sc : Scope} (h : Arr st l a) {i : Nat} {v : Obj} (hi : a[i]? = some v) :
    tabGet (.tab l) (.int i) ⟨g, st, sc⟩ = .ok v ⟨g, st, sc⟩ := by
  obtain ⟨es, h1, h2⟩ := h
  have hl : look l ⟨g, st, sc⟩ = .ok (.tab es) ⟨g, st, sc⟩ := by
    unfold look
    rw [h1]
  refine (ev_bind hl).trans ?_
  show (if (sameKind (.int i) (.int i) && es.all fun e => sameKind (.int i) e.1) = true then pure ((entryOf (.int i) es).getD .nil) else odd) _ = _
  rw [if_pos (cells_kind h2 i), entryOf_mem (perm_keys h2) (h2.mem_iff.mpr (mem_cells.mpr ⟨i, rfl, hi⟩))]
  rfl

/-- Only the location `l` may have changed. -/
def Keeps (l : Nat) (st st' : List Thing) : Prop := ∀ i, i ≠ l → st'[i]? = st[i]?

theorem Keeps.trans {l : Nat} {a b c : List Thing} (h1 : Keeps l a b) (h2 : Keeps l b c) : Keeps l a c := fun i hi => (h2 i hi).trans (h1 i hi)

theorem Keeps.refl (l : Nat) (a : List Thing) : Keeps l a a := fun _ _ => rfl

/-- Writing an element. -/
theorem arr_put {g : List (Bytes × Obj)} {st : List Thing} {l : Nat} {a : List Obj} {sc : Scope} (h : Arr st l a) {i : Nat} {v : Obj} (hi : i < a.length) (hv : plainVal v = true) :
    ∃ st', tabPut (.tab l) (.int i) v ⟨g, st, sc⟩ = .ok () ⟨g, st', sc⟩ ∧ Arr st' l (a.set i v) ∧ Keeps l st st' := by
  obtain ⟨es, h1, h2⟩ := h
  have hlt : l < st.length := (List.getElem?_eq_some_iff.mp h1).1
  have hl : look l ⟨g, st, sc⟩ = .ok (.tab es) ⟨g, st, sc⟩ := by
    unfold look
    rw [h1]
  refine ⟨st.set l (.tab (es.filter (fun e => e.1 ≠ .int i) ++ [(.int i, v)])), ?_, ⟨_, List.getElem?_set_self hlt, ?_⟩, fun j hj => List.getElem?_set_ne (Ne.symm hj)⟩
  · refine (ev_bind hl).trans ?_
    dsimp only
    rw [if_pos (show isKey (.int i) = true from rfl), if_pos (cells_kind h2 i)]
    cases v with
    | nil => cases hv
    | clo f => cases hv
    | _ => rfl
  · have hk := perm_keys h2
    have n1 : (es.filter (fun e => e.1 ≠ .int i) ++ [((.int i : Obj), v)]).Nodup := by
      refine List.Nodup.append (List.Nodup.filter _ (List.Nodup.of_map _ hk)) (List.nodup_singleton _) ?_
      intro e h3 h4
      rw [List.mem_singleton] at h4
      have := (List.mem_filter.mp h3).2
      rw [h4] at this
      simp at this
    rw [List.perm_ext_iff_of_nodup n1 (List.Nodup.of_map _ (cells_nodup _))]
    rintro ⟨k, w⟩
    rw [List.mem_append, List.mem_filter, List.mem_singleton, mem_cells, h2.mem_iff, mem_cells]
    constructor
    · rintro (⟨⟨j, rfl, h3⟩, h4⟩ | h3)
      · have hne : i ≠ j := by
          rintro rfl
          simp at h4
        exact ⟨j, rfl, by rw [List.getElem?_set_ne hne, h3]⟩
      · obtain ⟨rfl, rfl⟩ := Prod.mk.inj h3
        exact ⟨i, rfl, List.getElem?_set_self hi⟩
    · rintro ⟨j, rfl, h3⟩
      by_cases hne : i = j
      · subst hne
        rw [List.getElem?_set_self hi] at h3
        exact .inr (by rw [Option.some.inj h3])
      · rw [List.getElem?_set_ne hne] at h3
        refine .inl ⟨⟨j, rfl, h3⟩, ?_⟩
        simp
        omega

/-- The size of an array. -/
theorem arr_size {g : List (Bytes × Obj)} {st : List Thing} {l : Nat} {a : List Obj} {sc : Scope} (h : Arr st l a) (hl : a.length < 2147483648) :
    libSize (.tab l) ⟨g, st, sc⟩ = .ok (.int a.length) ⟨g, st, sc⟩ := by
  obtain ⟨es, h1, h2⟩ := h
  have hlk : look l ⟨g, st, sc⟩ = .ok (.tab es) ⟨g, st, sc⟩ := by
    unfold look
    rw [h1]
  refine (ev_bind hlk).trans ?_
  have : es.length = a.length := by rw [h2.length_eq]; simp [cells]
  dsimp only
  rw [if_pos (by omega), this]
  rfl

/-! ### `table.swap` -/

theorem set_same {a : List Obj} {i : Nat} {x : Obj} (h : a[i]? = some x) : a.set i x = a := by
  obtain ⟨h', rfl⟩ := List.getElem?_eq_some_iff.mp h
  exact List.set_getElem_self h'

theorem swap_self {a : List Obj} {i : Nat} (h : i < a.length) : Sort.swap a i i = .ok a := by
  unfold Sort.swap
  rw [List.getElem?_eq_getElem h]
  dsimp only
  rw [List.set_set, List.set_getElem_self h]

theorem swap_comm (a : List Obj) (i j : Nat) : Sort.swap a i j = Sort.swap a j i := by
  unfold Sort.swap
  by_cases hij : i = j
  · rw [hij]
  cases hx : a[i]? with
  | none => cases a[j]? <;> rfl
  | some x =>
    cases hy : a[j]? with
    | none => rfl
    | some y =>
      dsimp only
      rw [List.set_comm _ _ hij]

/-- A swap keeps the elements, and everything at the other places. -/
theorem swap_keeps {a a' : List Obj} {i j : Nat} (h : Sort.swap a i j = .ok a') : a'.length = a.length ∧ (∀ x, x ∈ a' → x ∈ a) ∧ ∀ k, k ≠ i → k ≠ j → a'[k]? = a[k]? := by
  unfold Sort.swap at h
  split at h
  case h_2 => cases h
  rename_i x y hx hy
  injection h with h
  subst h
  refine ⟨by simp, fun z hz => ?_, fun k h1 h2 => by rw [List.getElem?_set_ne (Ne.symm h2), List.getElem?_set_ne (Ne.symm h1)]⟩
  rcases List.mem_or_eq_of_mem_set hz with hz | rfl
  · rcases List.mem_or_eq_of_mem_set hz with hz | rfl
    · exact hz
    · exact List.mem_of_getElem? hy
  · exact List.mem_of_getElem? hx

theorem swap_apply {H : Host} {m : Nat} {g : List (Bytes × Obj)} {st : List Thing} {sc : Scope} {l lt f : Nat} {a a' : List Obj} {i j : Nat}
    (hf : st[f]? = some (.fn [N.t, N.i, N.j] tableSwapBody [(self, .tab lt)])) (h : Arr st l a) (hp : ∀ x ∈ a, plainVal x = true) (hs : Sort.swap a i j = .ok a') :
    ∃ st', apply H.lib (exec H m) (.clo f) [.tab l, .int i, .int j] ⟨g, st, sc⟩ = .ok .nil ⟨g, st', sc⟩ ∧ Arr st' l a' ∧ Keeps l st st' := by
  unfold Sort.swap at hs
  split at hs
  case h_2 => cases hs
  rename_i x y hx hy
  injection hs with hs
  have hil : i < a.length := (List.getElem?_eq_some_iff.mp hx).1
  have hjl : j < a.length := (List.getElem?_eq_some_iff.mp hy).1
  have hpx : plainVal x = true := hp x (List.mem_of_getElem? hx)
  have hpy : plainVal y = true := hp y (List.mem_of_getElem? hy)
  obtain ⟨run, hr⟩ : ∃ run, exec H m = fun a => eval H m run a false := by
    cases m with
    | zero => exact ⟨_, rfl⟩
    | succ n => exact ⟨_, rfl⟩
  have hc : ∀ g st, eval H m run (.bin .neq (.id N.i) (.id N.j)) false ⟨g, st, .fn [(self, .tab lt), (N.t, .tab l), (N.i, .int i), (N.j, .int j)]⟩ =
      .ok [ofBool (decide ((i : Int) ≠ j))] ⟨g, st, .fn [(self, .tab lt), (N.t, .tab l), (N.i, .int i), (N.j, .int j)]⟩ :=
    fun g st => ev_bin rfl rfl (ev_loc rfl) (ev_loc rfl) ev_neq
  by_cases hij : i = j
  · subst hij
    rw [hx] at hy
    obtain rfl := Option.some.inj hy
    rw [List.set_set, set_same hx] at hs
    subst hs
    refine ⟨st, ?_, h, Keeps.refl _ _⟩
    refine apply_end (s' := ⟨g, st, .fn [(self, .tab lt), (N.t, .tab l), (N.i, .int i), (N.j, .int i)]⟩) (ws := []) hf (lim (by simp)) rfl (lim (by simp)) ?_
    rw [hr]
    refine ev_seq ((ev_ifs rfl rfl (hc g st)).trans ?_) ev_skip
    rw [truth_ofBool, if_neg (by simp)]
  · obtain ⟨st1, e1, a1, k1⟩ := arr_put (g := g) (sc := .fn [(self, .tab lt), (N.t, .tab l), (N.i, .int i), (N.j, .int j), (N.k, x)]) h hil hpy
    have hj1 : j < (a.set i y).length := by simpa using hjl
    obtain ⟨st2, e2, a2, k2⟩ := arr_put (g := g) (sc := .fn [(self, .tab lt), (N.t, .tab l), (N.i, .int i), (N.j, .int j), (N.k, x)]) a1 hj1 hpx
    refine ⟨st2, ?_, by rw [← hs]; exact a2, k1.trans k2⟩
    refine apply_end (s' := ⟨g, st2, .fn [(self, .tab lt), (N.t, .tab l), (N.i, .int i), (N.j, .int j)]⟩) (ws := []) hf (lim (by simp)) rfl (lim (by simp)) ?_
    rw [hr]
    refine ev_seq ((ev_ifs rfl rfl (hc g st)).trans ?_) ev_skip
    rw [truth_ofBool, if_pos (by simp; omega)]
    refine ev_block (env' := [(self, .tab lt), (N.t, .tab l), (N.i, .int i), (N.j, .int j), (N.k, x)]) ?_
    refine ev_seq (s1 := ⟨g, st, .fn [(self, .tab lt), (N.t, .tab l), (N.i, .int i), (N.j, .int j), (N.k, x)]⟩) ?_ (ev_seq (s1 := ⟨g, st1, .fn [(self, .tab lt), (N.t, .tab l), (N.i, .int i), (N.j, .int j), (N.k, x)]⟩) ?_ (ev_seq ?_ ev_skip))
    · exact ev_init (env' := [(self, .tab lt), (N.t, .tab l), (N.i, .int i), (N.j, .int j), (N.k, .nil)]) rfl (lim (by simp)) rfl (ev_index rfl rfl (ev_loc rfl) (ev_loc rfl) (arr_get h hx)) rfl
    · exact ev_setidx rfl rfl rfl (ev_loc rfl) (ev_loc rfl) (ev_index rfl rfl (ev_loc rfl) (ev_loc rfl) (arr_get h hy)) e1
    · exact ev_setidx rfl rfl rfl (ev_loc rfl) (ev_loc rfl) (ev_loc rfl) e2

/-! ### `table.sort` -/

/-- A state in which the sorting of the table at `l` can be, if it began with `g0` and `st0`. -/
structure Amid (g0 : List (Bytes × Obj)) (st0 : List Thing) (l : Nat) (g : List (Bytes × Obj)) (st : List Thing) : Prop where
  gl : ∀ x, x ≠ N.pivot → x ≠ N.partition → x ≠ N.qsort → valueOf x g = valueOf x g0
  old : ∀ i < st0.length, i ≠ l → st[i]? = st0[i]?

/-- The function at `f` compares: for elements satisfying `D` it ends, within `nc` nested calls and rounds, with a value whose truth is `le`, and changes nothing. -/
def Compares (H : Host) (nc : Nat) (g0 : List (Bytes × Obj)) (st0 : List Thing) (l f : Nat) (D : Obj → Prop) (le : Obj → Obj → Bool) : Prop :=
  ∀ n ≥ nc, ∀ s : St, Amid g0 st0 l s.globals s.store → ∀ x y, D x → D y → ∃ v, apply H.lib (exec H n) (.clo f) [x, y] s = .ok v s ∧ truth v = le x y

/-- The comparison as that of `Verif/Sort.lean`. -/
def cmpOf (le : Obj → Obj → Bool) (x y : Obj) : Int := if le x y then -1 else 1

/-- What `table.sort` captures. -/
def sortEnv (lt l f : Nat) : List (Bytes × Obj) := [(self, .tab lt), (N.t, .tab l), (N.cmp, .clo f)]

/-- The functions `table.sort` uses are in their places. -/
structure Sorting (g : List (Bytes × Obj)) (st : List Thing) (lt l f : Nat) (g0 : List (Bytes × Obj)) (st0 : List Thing) : Prop where
  fns : HasFns N.table g st lt [(N.swap, .fn [N.t, N.i, N.j] tableSwapBody [(self, .tab lt)])]
  part : ∃ k, valueOf N.partition g = some (.clo k) ∧ st[k]? = some (.fn [N.l, N.h] partitionBody (sortEnv lt l f))
  qs : ∃ k, valueOf N.qsort g = some (.clo k) ∧ st[k]? = some (.fn [N.l, N.h] qsortBody (sortEnv lt l f))
  amid : Amid g0 st0 l g st
  ne : lt ≠ l

theorem Sorting.keep {g g' : List (Bytes × Obj)} {st st' : List Thing} {lt l f : Nat} {g0 : List (Bytes × Obj)} {st0 : List Thing} {a : List Obj} (h : Sorting g st lt l f g0 st0) (ha : Arr st l a) (hk : Keeps l st st')
    (hg : ∀ x, x ≠ N.pivot → valueOf x g' = valueOf x g) : Sorting g' st' lt l f g0 st0 := by
  obtain ⟨es, ha, _⟩ := ha
  have key : ∀ (i : Nat) (t : Thing), (∀ es, t ≠ .tab es) → st[i]? = some t → st'[i]? = some t := by
    intro i t ht hi
    rw [hk i (by rintro rfl; rw [ha] at hi; exact ht _ (Option.some.inj hi).symm), hi]
  obtain ⟨⟨h1, es', h2, h3, h4⟩, ⟨k1, h5, h6⟩, ⟨k2, h7, h8⟩, ⟨h9, h10⟩, h11⟩ := h
  refine ⟨⟨by rw [hg _ (by decide), h1], es', by rw [hk _ h11, h2], h3, fun k t hm => ?_⟩, ⟨k1, by rw [hg _ (by decide), h5], key _ _ (by simp) h6⟩,
    ⟨k2, by rw [hg _ (by decide), h7], key _ _ (by simp) h8⟩, ⟨fun x p1 p2 p3 => by rw [hg x p1, h9 x p1 p2 p3], fun i p1 p2 => by rw [hk i p2, h10 i p1 p2]⟩, h11⟩
  obtain ⟨f', h12, h13⟩ := h4 k t hm
  refine ⟨f', h12, key _ _ ?_ h13⟩
  rw [List.mem_singleton] at hm
  rw [(Prod.mk.inj hm).2]
  simp

/-- The condition of the loop in `partition`. -/
def partCond : Ast := .bin .lt (.id N.j) (.id N.h)

/-- What `partition` does with an element that is not greater than the pivot. -/
def partThen : Ast := .block (.seq (.run (.call (.field (.id N.table) N.swap) (.arg (.arg (.arg .noArg (.id N.t)) (.id N.i)) (.id N.j))))
  (.seq (.assign (.id N.i) (.bin .add (.id N.i) (.num N.d1))) .skip))

/-- A round of the loop in `partition`. -/
def partRound : Ast := .block (.seq (.ifs (.call (.id N.cmp) (.arg (.arg .noArg (.index (.id N.t) (.id N.j))) (.id N.pivot))) partThen)
  (.seq (.assign (.id N.j) (.bin .add (.id N.j) (.num N.d1))) .skip))

theorem partition_shape : partitionBody = .seq (.assign (.id N.pivot) (.index (.id N.t) (.id N.h))) (.seq (.init N.i (.id N.l)) (.seq (.init N.j (.id N.l))
    (.seq (.while_ partCond partRound) (.seq (.run (.call (.field (.id N.table) N.swap) (.arg (.arg (.arg .noArg (.id N.t)) (.id N.i)) (.id N.h))))
    (.seq (.ret (.id N.i)) .skip))))) := rfl

/-- The variables of `partition`. -/
def partEnv (lt l f lo hi i j : Nat) : List (Bytes × Obj) :=
  [(self, .tab lt), (N.t, .tab l), (N.cmp, .clo f), (N.l, .int lo), (N.h, .int hi), (N.i, .int i), (N.j, .int j)]

section Sorting

variable {H : Host} {nc : Nat} {g : List (Bytes × Obj)} {lt l f : Nat} {g0 : List (Bytes × Obj)} {st0 : List Thing} {D : Obj → Prop} {le : Obj → Obj → Bool}

/-- The statement `table.swap(t, i, x)`. -/
theorem ev_swap {n m : Nat} {st : List Thing} {env : List (Bytes × Obj)} {x : Bytes} {i j : Nat} {p : Bool} {a a' : List Obj} (hs : Sorting g st lt l f g0 st0) (h : Arr st l a)
    (hp : ∀ x ∈ a, plainVal x = true) (hw : Sort.swap a i j = .ok a') (he : valueOf N.table env = none) (ht : valueOf N.t env = some (.tab l)) (hi : valueOf N.i env = some (.int i))
    (hx : valueOf x env = some (.int j)) :
    ∃ st', eval H n (exec H m) (.run (.call (.field (.id N.table) N.swap) (.arg (.arg (.arg .noArg (.id N.t)) (.id N.i)) (.id x)))) p ⟨g, st, .fn env⟩ = .ok [] ⟨g, st', .fn env⟩ ∧
      Arr st' l a' ∧ Keeps l st st' := by
  obtain ⟨k, h1, h2⟩ := hs.fns.get (k := N.swap) List.mem_cons_self
  obtain ⟨st', h3, h4, h5⟩ := swap_apply (H := H) (m := m) (g := g) (sc := .fn env) h1 h hp hw
  refine ⟨st', ev_run (v := .nil) rfl ?_, h4, h5⟩
  exact ev_call rfl rfl (ev_field rfl (ev_glob he hs.fns.glob) (h2 _)) (ev_arg rfl (ev_arg rfl (ev_arg rfl ev_noArg (ev_loc ht)) (ev_loc hi)) (ev_loc hx)) h3

theorem part_loop (hc : Compares H nc g0 st0 l f D le) {m n' lo hi : Nat} (hm : nc ≤ m) {piv : Obj} (hv : valueOf N.pivot g = some piv) :
    ∀ (n k pt r : Nat) (a a' : List Obj) (p : Nat) (st : List Thing), k + n = hi → pt ≤ k → hi < a.length → a.length < 2147483647 → Arr st l a → (∀ x ∈ a, plainVal x = true) → (∀ x ∈ a, D x) →
      a[hi]? = some piv → Sorting g st lt l f g0 st0 → Sort.partLoop (cmpOf le) hi n k pt a = .ok (a', p) → n < r →
      ∃ st', loop (one partCond (eval H n' (exec H m) partCond false)) (noValue (eval H n' (exec H m) partRound false)) r ⟨g, st, .fn (partEnv lt l f lo hi pt k)⟩ =
        .ok [] ⟨g, st', .fn (partEnv lt l f lo hi p hi)⟩ ∧ Arr st' l a' ∧ Keeps l st st' := by
  have hcond : ∀ st (k pt : Nat), one partCond (eval H n' (exec H m) partCond false) ⟨g, st, .fn (partEnv lt l f lo hi pt k)⟩ =
      .ok (ofBool (decide ((k : Int) < hi))) ⟨g, st, .fn (partEnv lt l f lo hi pt k)⟩ := fun st k pt => ev_one rfl (ev_bin rfl rfl (ev_loc rfl) (ev_loc rfl) ev_lt)
  intro n
  induction n with
  | zero =>
    intro k pt r a a' p st h1 h2 h3 h4 h5 h6 h7 h8 h9 h10 h11
    obtain ⟨r, rfl⟩ : ∃ q, r = q + 1 := ⟨r - 1, by omega⟩
    have h10 : Res.ok (a, pt) = Res.ok (a', p) := h10
    injection h10 with h10
    obtain ⟨rfl, rfl⟩ := Prod.mk.inj h10
    obtain rfl : k = hi := by omega
    exact ⟨st, loop_end (hcond st k pt) (by rw [truth_ofBool]; simp), h5, Keeps.refl _ _⟩
  | succ n ih =>
    intro k pt r a a' p st h1 h2 h3 h4 h5 h6 h7 h8 h9 h10 h11
    obtain ⟨r, rfl⟩ : ∃ q, r = q + 1 := ⟨r - 1, by omega⟩
    have hkl : k < a.length := by omega
    have hx : a[k]? = some a[k] := List.getElem?_eq_getElem hkl
    rw [Sort.partLoop, hx, h8] at h10
    dsimp only at h10
    have hxm : a[k] ∈ a := List.getElem_mem hkl
    have hym : piv ∈ a := List.mem_of_getElem? h8
    obtain ⟨v, hv1, hv2⟩ := hc m hm ⟨g, st, .fn (partEnv lt l f lo hi pt k)⟩ h9.amid a[k] piv (h7 _ hxm) (h7 _ hym)
    have hcall : eval H n' (exec H m) (.call (.id N.cmp) (.arg (.arg .noArg (.index (.id N.t) (.id N.j))) (.id N.pivot))) false ⟨g, st, .fn (partEnv lt l f lo hi pt k)⟩ =
        .ok [v] ⟨g, st, .fn (partEnv lt l f lo hi pt k)⟩ :=
      ev_call rfl rfl (ev_loc rfl) (ev_arg rfl (ev_arg rfl ev_noArg (ev_index rfl rfl (ev_loc rfl) (ev_loc rfl) (arr_get h5 hx))) (ev_glob rfl hv)) hv1
    have hnext : ∀ st (pt : Nat), eval H n' (exec H m) (.assign (.id N.j) (.bin .add (.id N.j) (.num N.d1))) false ⟨g, st, .fn (partEnv lt l f lo hi pt k)⟩ =
        .ok [] ⟨g, st, .fn (partEnv lt l f lo hi pt (k + 1))⟩ := fun st pt =>
      (ev_set (env' := partEnv lt l f lo hi pt k) rfl (ev_bin rfl rfl (ev_loc rfl) (ev_num const1) (ev_add (by constructor <;> omega))) rfl)
    by_cases hle : le a[k] piv = true
    · have hlt : cmpOf le a[k] piv < 0 := by unfold cmpOf; rw [if_pos hle]; decide
      rw [if_pos hlt] at h10
      obtain ⟨b, hb1, hb2⟩ : ∃ b, Sort.swap a pt k = .ok b ∧ Sort.partLoop (cmpOf le) hi n (k + 1) (pt + 1) b = .ok (a', p) := by
        by_cases hkp : k ≠ pt
        · rw [if_pos hkp] at h10
          split at h10
          · rename_i b hb
            exact ⟨b, by rw [swap_comm]; exact hb, h10⟩
          · cases h10
        · rw [if_neg hkp] at h10
          obtain rfl : k = pt := by omega
          exact ⟨a, swap_self hkl, h10⟩
      obtain ⟨st1, e1, a1, k1⟩ := ev_swap (H := H) (n := n') (m := m) (env := partEnv lt l f lo hi pt k) (x := N.j) (p := false) h9 h5 h6 hb1 rfl rfl rfl rfl
      obtain ⟨w1, w2, w3⟩ := swap_keeps hb1
      obtain ⟨st2, e2, a2, k2⟩ := ih (k + 1) (pt + 1) r b a' p st1 (by omega) (by omega) (by omega) (by omega) a1 (fun x hx => h6 x (w2 x hx)) (fun x hx => h7 x (w2 x hx))
        (by rw [w3 hi (by omega) (by omega), h8]) (h9.keep h5 k1 (fun _ _ => rfl)) hb2 (by omega)
      refine ⟨st2, (loop_go (hcond st k pt) (by rw [truth_ofBool]; simp; omega) (ev_noValue (s1 := ⟨g, st1, .fn (partEnv lt l f lo hi (pt + 1) (k + 1))⟩) ?_)).trans e2, a2, k1.trans k2⟩
      refine ev_block (env' := partEnv lt l f lo hi (pt + 1) (k + 1)) ?_
      refine ev_seq (s1 := ⟨g, st1, .fn (partEnv lt l f lo hi (pt + 1) k)⟩) ((ev_ifs rfl rfl hcall).trans ?_) (ev_seq (hnext st1 (pt + 1)) ev_skip)
      rw [hv2, if_pos hle]
      refine ev_block (env' := partEnv lt l f lo hi (pt + 1) k) ?_
      refine ev_seq e1 (ev_seq ?_ ev_skip)
      exact ev_set (env' := partEnv lt l f lo hi pt k) rfl (ev_bin rfl rfl (ev_loc rfl) (ev_num const1) (ev_add (by constructor <;> omega))) rfl
    · have hlt : ¬ cmpOf le a[k] piv < 0 := by unfold cmpOf; rw [if_neg hle]; decide
      rw [if_neg hlt] at h10
      obtain ⟨st2, e2, a2, k2⟩ := ih (k + 1) pt r a a' p st (by omega) (by omega) h3 h4 h5 h6 h7 h8 h9 h10 (by omega)
      refine ⟨st2, (loop_go (hcond st k pt) (by rw [truth_ofBool]; simp; omega) (ev_noValue (s1 := ⟨g, st, .fn (partEnv lt l f lo hi pt (k + 1))⟩) ?_)).trans e2, a2, k2⟩
      refine ev_block (env' := partEnv lt l f lo hi pt (k + 1)) ?_
      refine ev_seq (s1 := ⟨g, st, .fn (partEnv lt l f lo hi pt k)⟩) ((ev_ifs rfl rfl hcall).trans ?_) (ev_seq (hnext st pt) ev_skip)
      rw [hv2, if_neg hle]

/-- A call of `partition`. -/
theorem part_apply (hc : Compares H nc g0 st0 l f D le) {m lo hi k : Nat} (hm : nc ≤ m) (hf : hi - lo ≤ m) {a a' : List Obj} {p : Nat} {st : List Thing} {sc : Scope} (h1 : lo ≤ hi) (h3 : hi < a.length)
    (h4 : a.length < 2147483647) (h5 : Arr st l a) (h6 : ∀ x ∈ a, plainVal x = true) (h7 : ∀ x ∈ a, D x) (h9 : Sorting g st lt l f g0 st0) (hp : Sort.part (cmpOf le) a lo hi = .ok (a', p))
    (hk : st[k]? = some (.fn [N.l, N.h] partitionBody (sortEnv lt l f))) :
    ∃ st', apply H.lib (exec H (m + 1)) (.clo k) [.int lo, .int hi] ⟨g, st, sc⟩ = .ok (.int p) ⟨putG N.pivot a[hi] g, st', sc⟩ ∧ Arr st' l a' ∧ Keeps l st st' := by
  unfold Sort.part at hp
  split at hp
  case h_2 => cases hp
  rename_i b q hb
  split at hp
  case h_2 => cases hp
  rename_i c hw
  injection hp with hp
  obtain ⟨rfl, rfl⟩ := Prod.mk.inj hp
  have hx : a[hi]? = some a[hi] := List.getElem?_eq_getElem h3
  have hs : Sorting (putG N.pivot a[hi] g) st lt l f g0 st0 := h9.keep h5 (Keeps.refl _ _) (fun x hx => putG_ne hx _ _)
  obtain ⟨st1, e1, a1, k1⟩ := part_loop (g := putG N.pivot a[hi] g) (lo := lo) (n' := m + 1) hc hm (putG_same _ _ _) (hi - lo) lo lo (m + 1) a b q st (by omega) (Nat.le_refl _) h3 h4 h5 h6 h7 hx hs hb (by omega)
  obtain ⟨l', p', s1, s2, s3, s4, _⟩ := Sort.partLoop_spec (cmpOf le) hi lo a[hi] (hi - lo) lo lo a (by omega) (Nat.le_refl _) (Nat.le_refl _) h3 hx (by intro i x u v w; omega) (by intro i x u v w; omega)
  rw [hb] at s1
  injection s1 with s1
  obtain ⟨rfl, rfl⟩ := Prod.mk.inj s1
  obtain ⟨st2, e2, a2, k2⟩ := ev_swap (H := H) (n := m + 1) (m := m) (env := partEnv lt l f lo hi q hi) (x := N.h) (p := false) (hs.keep h5 k1 (fun _ _ => rfl)) a1
    (fun x hx => h6 x (s4.perm.mem_iff.mp hx)) hw rfl rfl rfl rfl
  refine ⟨st2, ?_, a2, k1.trans k2⟩
  refine apply_fn (s' := ⟨putG N.pivot a[hi] g, st2, .fn (partEnv lt l f lo hi q hi)⟩) hk (lim (by simp)) rfl (lim (by simp [sortEnv])) ?_
  rw [partition_shape]
  show eval H (m + 1) (exec H m) _ false ⟨g, st, .fn ([(self, .tab lt), (N.t, .tab l), (N.cmp, .clo f), (N.l, .int lo), (N.h, .int hi)])⟩ = _
  refine ev_seq (p := false) (s1 := ⟨putG N.pivot a[hi] g, st, .fn ([(self, .tab lt), (N.t, .tab l), (N.cmp, .clo f), (N.l, .int lo), (N.h, .int hi)])⟩) ?_ ?_
  · exact ev_gset (x := N.pivot) (env' := [(self, .tab lt), (N.t, .tab l), (N.cmp, .clo f), (N.l, .int lo), (N.h, .int hi)]) rfl (ev_index rfl rfl (ev_loc rfl) (ev_loc rfl) (arr_get h5 hx)) rfl
  refine ev_seq (s1 := ⟨putG N.pivot a[hi] g, st, .fn ([(self, .tab lt), (N.t, .tab l), (N.cmp, .clo f), (N.l, .int lo), (N.h, .int hi), (N.i, .int lo)])⟩) ?_ ?_
  · exact ev_init (env' := [(self, .tab lt), (N.t, .tab l), (N.cmp, .clo f), (N.l, .int lo), (N.h, .int hi), (N.i, .nil)]) rfl (lim (by simp)) rfl (ev_loc rfl) rfl
  refine ev_seq (s1 := ⟨putG N.pivot a[hi] g, st, .fn (partEnv lt l f lo hi lo lo)⟩) ?_ ?_
  · exact ev_init (env' := [(self, .tab lt), (N.t, .tab l), (N.cmp, .clo f), (N.l, .int lo), (N.h, .int hi), (N.i, .int lo), (N.j, .nil)]) rfl (lim (by simp)) rfl (ev_loc rfl) rfl
  refine ev_seq ((ev_while rfl rfl).trans e1) (ev_seq e2 (ev_seq_ret (ev_ret (st := st2) (env := []) rfl (ev_loc rfl))))

/-- A call of `qsort`. -/
theorem qs_apply (hc : Compares H nc g0 st0 l f D le) (htot : ∀ x y, le x y = true ∨ le y x = true) (htr : ∀ x y z, le x y = true → le y z = true → le x z = true) :
    ∀ (w m lo k : Nat) (hi : Int) (a a' : List Obj) (g : List (Bytes × Obj)) (st : List Thing) (sc : Scope), (hi - lo + 1).toNat ≤ w → w + nc + 2 ≤ m → -1 ≤ hi → hi < a.length → lo ≤ a.length →
      a.length < 2147483647 → Arr st l a → (∀ x ∈ a, plainVal x = true) → (∀ x ∈ a, D x) → Sorting g st lt l f g0 st0 → Sort.qsort (cmpOf le) a lo hi = .ok a' →
      st[k]? = some (.fn [N.l, N.h] qsortBody (sortEnv lt l f)) →
      ∃ g' st', apply H.lib (exec H m) (.clo k) [.int lo, .int hi] ⟨g, st, sc⟩ = .ok .nil ⟨g', st', sc⟩ ∧ Arr st' l a' ∧ Keeps l st st' ∧ ∀ x, x ≠ N.pivot → valueOf x g' = valueOf x g := by
  have hlec : ∀ x y, cmpOf le x y ≤ 0 ↔ le x y = true := by
    intro x y
    unfold cmpOf
    cases le x y <;> simp
  have htot' : ∀ x y, cmpOf le x y < 0 ∨ cmpOf le y x ≤ 0 := by
    intro x y
    rcases htot x y with h | h
    · left; unfold cmpOf; rw [if_pos h]; decide
    · right; exact (hlec _ _).mpr h
  have htr' : ∀ x y z, cmpOf le x y ≤ 0 → cmpOf le y z ≤ 0 → cmpOf le x z ≤ 0 := by
    intro x y z h1 h2
    rw [hlec] at *
    exact htr x y z h1 h2
  intro w
  induction w with
  | zero =>
    intro m lo k hi a a' g st sc hw hm h1 h2 h3 h4 h5 h6 h7 h9 hq hk
    rw [Sort.qsort, dif_neg (by omega)] at hq
    injection hq with hq
    subst hq
    refine ⟨g, st, ?_, h5, Keeps.refl _ _, fun _ _ => rfl⟩
    obtain ⟨m, rfl⟩ : ∃ q, m = q + 1 := ⟨m - 1, by omega⟩
    refine apply_end (ws := []) (s' := ⟨g, st, .fn ([(self, .tab lt), (N.t, .tab l), (N.cmp, .clo f), (N.l, .int lo), (N.h, .int hi)])⟩) hk (lim (by simp)) rfl (lim (by simp [sortEnv])) ?_
    refine ev_seq (p := false) ((ev_ifs rfl rfl (ev_bin rfl rfl (ev_loc rfl) (ev_loc rfl) ev_lt)).trans ?_) ev_skip
    rw [truth_ofBool, if_neg (by simp; omega)]
    rfl
  | succ w ih =>
    intro m lo k hi a a' g st sc hw hm h1 h2 h3 h4 h5 h6 h7 h9 hq hk
    obtain ⟨m, rfl⟩ : ∃ q, m = q + 1 := ⟨m - 1, by omega⟩
    by_cases hlt : (lo : Int) < hi
    · obtain ⟨h, rfl⟩ : ∃ h : Nat, hi = h := ⟨hi.toNat, by omega⟩
      rw [Sort.qsort, dif_pos hlt] at hq
      obtain ⟨b, p, y, hp, p1, p2, p3, _⟩ := Sort.part_spec (cmpOf le) a lo h (by omega) (by omega)
      rw [show ((h : Int)).toNat = h from rfl] at hq
      split at hq
      case h_2 hne => exact absurd hp (hne b p)
      rename_i b' p' hp'
      rw [hp] at hp'
      injection hp' with hp'
      obtain ⟨rfl, rfl⟩ := Prod.mk.inj hp'
      have hbl : b.length = a.length := p3.len
      obtain ⟨c, hq1, hq2, _⟩ := Sort.qsort_spec (cmpOf le) htot' htr' _ b lo ((p : Int) - 1) (Nat.le_refl _) (by omega)
      rw [hq1] at hq
      dsimp only at hq
      have hcs := hq2 p (by omega)
      have hcl : c.length = b.length := hcs.len
      have mem1 : ∀ x ∈ b, x ∈ a := fun x hx => p3.perm.mem_iff.mp hx
      have mem2 : ∀ x ∈ c, x ∈ a := fun x hx => mem1 x (hcs.perm.mem_iff.mp hx)
      obtain ⟨kp, hp1, hp2⟩ := h9.part
      obtain ⟨m', rfl⟩ : ∃ q, m = q + 1 := ⟨m - 1, by omega⟩
      -- the variables of the function
      have hh : h < a.length := by omega
      obtain ⟨st1, e1, a1, k1⟩ := part_apply (m := m') (k := kp) (sc := .fn ([(self, .tab lt), (N.t, .tab l), (N.cmp, .clo f), (N.l, .int lo), (N.h, .int h), (N.p, .nil)])) hc (by omega) (by omega) (by omega) hh h4 h5 h6 h7 h9 hp hp2
      have hs1 : Sorting (putG N.pivot a[h] g) st1 lt l f g0 st0 := h9.keep h5 k1 (fun x hx => putG_ne hx _ _)
      obtain ⟨kq, hk1, hk2⟩ := hs1.qs
      obtain ⟨g2, st2, e2, a2, k2, w2⟩ := ih (m' + 1) lo kq ((p : Int) - 1) b c _ st1 (.fn ([(self, .tab lt), (N.t, .tab l), (N.cmp, .clo f), (N.l, .int lo), (N.h, .int h), (N.p, .int p)])) (by omega) (by omega) (by omega) (by omega) (by omega)
        (by omega) a1 (fun x hx => h6 x (mem1 x hx)) (fun x hx => h7 x (mem1 x hx)) hs1 hq1 hk2
      have hs2 : Sorting g2 st2 lt l f g0 st0 := hs1.keep a1 k2 w2
      obtain ⟨kr, hr1, hr2⟩ := hs2.qs
      obtain ⟨g3, st3, e3, a3, k3, w3⟩ := ih (m' + 1) (p + 1) kr h c a' _ st2 (.fn ([(self, .tab lt), (N.t, .tab l), (N.cmp, .clo f), (N.l, .int lo), (N.h, .int h), (N.p, .int p)])) (by omega) (by omega) (by omega) (by omega) (by omega)
        (by omega) a2 (fun x hx => h6 x (mem2 x hx)) (fun x hx => h7 x (mem2 x hx)) hs2 hq hr2
      refine ⟨g3, st3, ?_, a3, (k1.trans k2).trans k3, fun x hx => by rw [w3 x hx, w2 x hx, putG_ne hx]⟩
      refine apply_end (ws := []) (s' := ⟨g3, st3, .fn ([(self, .tab lt), (N.t, .tab l), (N.cmp, .clo f), (N.l, .int lo), (N.h, .int h)])⟩) hk (lim (by simp)) rfl (lim (by simp [sortEnv])) ?_
      refine ev_seq (p := false) ((ev_ifs rfl rfl (ev_bin rfl rfl (ev_loc rfl) (ev_loc rfl) ev_lt)).trans ?_) ev_skip
      rw [truth_ofBool, if_pos (by simp; omega)]
      refine ev_block (env' := [(self, .tab lt), (N.t, .tab l), (N.cmp, .clo f), (N.l, .int lo), (N.h, .int h), (N.p, .int p)]) ?_
      refine ev_seq (s1 := ⟨putG N.pivot a[h] g, st1, .fn ([(self, .tab lt), (N.t, .tab l), (N.cmp, .clo f), (N.l, .int lo), (N.h, .int h), (N.p, .int p)])⟩) ?_ (ev_seq (s1 := ⟨g2, st2, .fn ([(self, .tab lt), (N.t, .tab l), (N.cmp, .clo f), (N.l, .int lo), (N.h, .int h), (N.p, .int p)])⟩) ?_ (ev_seq ?_ ev_skip))
      · exact ev_init (env' := [(self, .tab lt), (N.t, .tab l), (N.cmp, .clo f), (N.l, .int lo), (N.h, .int h), (N.p, .nil)]) rfl (lim (by simp [sortEnv])) rfl
          (ev_call rfl rfl (ev_glob rfl hp1) (ev_arg rfl (ev_arg rfl ev_noArg (ev_loc rfl)) (ev_loc rfl)) e1) rfl
      · exact ev_run (v := .nil) rfl (ev_call rfl rfl (ev_glob rfl hk1) (ev_arg rfl (ev_arg rfl ev_noArg (ev_loc rfl)) (ev_bin rfl rfl (ev_loc rfl) (ev_num const1) (ev_sub (by constructor <;> omega)))) e2)
      · exact ev_run (v := .nil) rfl (ev_call rfl rfl (ev_glob rfl hr1) (ev_arg rfl (ev_arg rfl ev_noArg (ev_bin rfl rfl (ev_loc rfl) (ev_num const1) (ev_add (by constructor <;> omega)))) (ev_loc rfl)) e3)
    · rw [Sort.qsort, dif_neg hlt] at hq
      injection hq with hq
      subst hq
      refine ⟨g, st, ?_, h5, Keeps.refl _ _, fun _ _ => rfl⟩
      refine apply_end (ws := []) (s' := ⟨g, st, .fn ([(self, .tab lt), (N.t, .tab l), (N.cmp, .clo f), (N.l, .int lo), (N.h, .int hi)])⟩) hk (lim (by simp)) rfl (lim (by simp [sortEnv])) ?_
      refine ev_seq (p := false) ((ev_ifs rfl rfl (ev_bin rfl rfl (ev_loc rfl) (ev_loc rfl) ev_lt)).trans ?_) ev_skip
      rw [truth_ofBool, if_neg (by simp; omega)]
      rfl

end Sorting

/-- The functions of the table `table` at `l`. -/
def tableFns (l : Nat) : List (Bytes × Thing) :=
  [(N.max, .fn [N.t] tableMaxBody [(self, .tab l)]), (N.maxkey, .fn [N.t] tableMaxKeyBody [(self, .tab l)]), (N.min, .fn [N.t] tableMinBody [(self, .tab l)]),
   (N.minkey, .fn [N.t] tableMinKeyBody [(self, .tab l)]), (N.print, .fn [N.t] tablePrintBody [(self, .tab l)]), (N.swap, .fn [N.t, N.i, N.j] tableSwapBody [(self, .tab l)]),
   (N.cmp_number, .fn [N.a, N.b] tableCmpNumberBody [(self, .tab l)]), (N.sort, .fn [N.t, N.cmp] tableSortBody [(self, .tab l)]), (N.shuffle, .fn [N.t] tableShuffleBody [(self, .tab l)])]

/-- A table with a function is not an array. -/
theorem fns_ne_arr {x : Bytes} {g : List (Bytes × Obj)} {st : List Thing} {lt l : Nat} {fs : List (Bytes × Thing)} {a : List Obj} (h : HasFns x g st lt fs) (hf : fs ≠ []) (ha : Arr st l a) : lt ≠ l := by
  rintro rfl
  obtain ⟨_, es, h2, h3, h4⟩ := h
  obtain ⟨es', h5, h6⟩ := ha
  rw [h2] at h5
  obtain rfl : es = es' := by injection h5 with h5; injection h5
  cases fs with
  | nil => exact hf rfl
  | cons e fs =>
    obtain ⟨f, h7, _⟩ := h4 e.1 e.2 List.mem_cons_self
    have : ∃ v, (Obj.str 0 e.1, v) ∈ es := by
      clear h2 h3 h4 h6 h5
      induction es with
      | nil => cases h7
      | cons e' es ih =>
        have h7 : (if e'.1 = Obj.str 0 e.1 then some e'.2 else entryOf (.str 0 e.1) es) = some (.clo f) := h7
        split at h7
        · rename_i he
          exact ⟨e'.2, by rw [← he]; exact List.mem_cons_self⟩
        · obtain ⟨v, hv⟩ := ih h7
          exact ⟨v, List.mem_cons_of_mem _ hv⟩
    obtain ⟨v, hv⟩ := this
    obtain ⟨i, hi, _⟩ := mem_cells.mp (h6.mem_iff.mp hv)
    cases hi

/-- A call of `table.sort`. -/
theorem sort_apply {H : Host} {nc : Nat} {g : List (Bytes × Obj)} {lt l f ks kz : Nat} {slf : Obj} {D : Obj → Prop} {le : Obj → Obj → Bool} {n : Nat} {a : List Obj} {st : List Thing} {sc : Scope}
    (hL : H.lib = stdLib) (hc : Compares H nc g st l f D le) (htot : ∀ x y, le x y = true ∨ le y x = true) (htr : ∀ x y z, le x y = true → le y z = true → le x z = true)
    (ht : HasFns N.table g st lt (tableFns lt)) (hz : valueOf N.size g = some (.clo kz)) (hz' : st[kz]? = some (.host 15 [slf])) (hs : st[ks]? = some (.fn [N.t, N.cmp] tableSortBody [(self, .tab lt)]))
    (ha : Arr st l a) (hl : a.length < 2147483647) (hp : ∀ x ∈ a, plainVal x = true) (hD : ∀ x ∈ a, D x) (hn : a.length + nc + 3 ≤ n) :
    ∃ a' g' st', Sort.sort (cmpOf le) a = .ok a' ∧ apply H.lib (exec H n) (.clo ks) [.tab l, .clo f] ⟨g, st, sc⟩ = .ok .nil ⟨g', st', sc⟩ ∧ Arr st' l a' ∧ (∀ i < st.length, i ≠ l → st'[i]? = st[i]?) ∧
      (∀ x, x ≠ N.pivot → x ≠ N.partition → x ≠ N.qsort → valueOf x g' = valueOf x g) ∧
      valueOf N.partition g' = some (.clo st.length) ∧ valueOf N.qsort g' = some (.clo (st.length + 1)) := by
  obtain ⟨n, rfl⟩ : ∃ m, n = m + 1 := ⟨n - 1, by omega⟩
  have hne := fns_ne_arr ht (by simp [tableFns]) ha
  obtain ⟨es, ha1, ha2⟩ := ha
  have hll : l < st.length := (List.getElem?_eq_some_iff.mp ha1).1
  -- the state in which `qsort` is called
  generalize hst : st ++ [.fn [N.l, N.h] partitionBody (sortEnv lt l f)] ++ [.fn [N.l, N.h] qsortBody (sortEnv lt l f)] = st2
  have old : ∀ i < st.length, st2[i]? = st[i]? := by
    intro i hi
    rw [← hst, List.append_assoc, List.getElem?_append_left hi]
  have hg2 : ∀ x, x ≠ N.partition → x ≠ N.qsort → valueOf x (putG N.qsort (.clo (st.length + 1)) (putG N.partition (.clo st.length) g)) = valueOf x g :=
    fun x h1 h2 => by rw [putG_ne h2, putG_ne h1]
  have hlt : ∀ (i : Nat) (t : Thing), st[i]? = some t → st2[i]? = some t := fun i t h => by rw [old i (List.getElem?_eq_some_iff.mp h).1, h]
  have hp1 : st2[st.length]? = some (.fn [N.l, N.h] partitionBody (sortEnv lt l f)) := by rw [← hst]; simp
  have hp2 : st2[st.length + 1]? = some (.fn [N.l, N.h] qsortBody (sortEnv lt l f)) := by rw [← hst]; simp
  have hS : Sorting (putG N.qsort (.clo (st.length + 1)) (putG N.partition (.clo st.length) g)) st2 lt l f g st := by
    refine ⟨?_, ⟨st.length, by rw [putG_ne (by decide), putG_same], hp1⟩, ⟨st.length + 1, putG_same _ _ _, hp2⟩, ⟨fun x _ h1 h2 => hg2 x h1 h2, fun i hi _ => old i hi⟩, hne⟩
    obtain ⟨h1, es, h2, h3, h4⟩ := ht.grow old
    refine ⟨by rw [hg2 _ (by decide) (by decide), h1], es, h2, h3, fun k t hk => h4 k t ?_⟩
    rw [List.mem_singleton] at hk
    rw [hk]
    simp [tableFns]
  have hA : Arr st2 l a := ⟨es, hlt _ _ ha1, ha2⟩
  have hlec : ∀ x y, cmpOf le x y ≤ 0 ↔ le x y = true := by
    intro x y
    unfold cmpOf
    cases le x y <;> simp
  obtain ⟨a', hq, hperm, _⟩ := Sort.sort_spec (cmpOf le)
    (fun x y => by rcases htot x y with h | h; exact .inl (by unfold cmpOf; rw [if_pos h]; decide); exact .inr ((hlec _ _).mpr h))
    (fun x y z h1 h2 => (hlec _ _).mpr (htr x y z ((hlec _ _).mp h1) ((hlec _ _).mp h2))) a
  obtain ⟨g', st', e1, a1, k1, w1⟩ := qs_apply hc htot htr a.length n 0 (st.length + 1) ((a.length : Int) - 1) a a' _ st2 (.fn [(self, .tab lt), (N.t, .tab l), (N.cmp, .clo f)]) (by omega) (by omega) (by omega) (by omega)
    (by omega) hl hA hp hD hS hq hp2
  refine ⟨a', g', st', hq, ?_, a1, fun i hi h => by rw [k1 i h, old i hi], fun x h1 h2 h3 => by rw [w1 x h1, hg2 x h2 h3], ?_, ?_⟩
  · refine apply_end (ws := []) (s' := ⟨g', st', .fn [(self, .tab lt), (N.t, .tab l), (N.cmp, .clo f)]⟩) hs (lim (by simp)) rfl (lim (by simp)) ?_
    refine ev_seq (p := false) (s1 := ⟨putG N.partition (.clo st.length) g, st ++ [.fn [N.l, N.h] partitionBody (sortEnv lt l f)], .fn [(self, .tab lt), (N.t, .tab l), (N.cmp, .clo f)]⟩) ?_ ?_
    · exact ev_gset (env' := [(self, .tab lt), (N.t, .tab l), (N.cmp, .clo f)]) rfl (ev_lam (env := [(self, .tab lt), (N.t, .tab l), (N.cmp, .clo f)]) (by simp only [List.map_cons, List.map_nil]; decide)) rfl
    refine ev_seq (s1 := ⟨putG N.qsort (.clo (st.length + 1)) (putG N.partition (.clo st.length) g), st2, .fn [(self, .tab lt), (N.t, .tab l), (N.cmp, .clo f)]⟩) ?_ ?_
    · refine ev_gset (env' := [(self, .tab lt), (N.t, .tab l), (N.cmp, .clo f)]) rfl ?_ rfl
      refine (ev_lam (env := [(self, .tab lt), (N.t, .tab l), (N.cmp, .clo f)]) (by simp only [List.map_cons, List.map_nil]; decide)).trans ?_
      rw [← hst]
      simp [sortEnv]
    refine ev_seq (ev_run (v := .nil) rfl (ev_call rfl rfl (ev_glob rfl (putG_same _ _ _)) (ev_arg rfl (ev_arg rfl ev_noArg (ev_num const0)) (ev_bin rfl rfl (ev_call rfl rfl (ev_glob (v := .clo kz) rfl ?_)
      (ev_arg rfl ev_noArg (ev_loc rfl)) ?_) (ev_num const1) (ev_sub (by constructor <;> omega)))) e1)) ev_skip
    · rw [hg2 _ (by decide) (by decide), hz]
    · refine apply_lib (s' := ⟨_, st2, .top⟩) (hlt _ _ hz') (lim (by simp)) ?_
      rw [hL]
      exact arr_size hA (by omega)
  · rw [w1 _ (by decide), putG_ne (by decide), putG_same]
  · rw [w1 _ (by decide), putG_same]

/-! ### Loading the script -/

theorem load_table {H : Host} {n : Nat} {run : Ast → Ev (List Obj)} {g : List (Bytes × Obj)} {st : List Thing} :
    ∃ st', eval H n run tableAst false ⟨g, st, .top⟩ = .ok [] ⟨putG N.table (.tab st.length) g, st', .top⟩ ∧ HasFns N.table (putG N.table (.tab st.length) g) st' st.length (tableFns st.length) ∧
      ∀ i < st.length, st'[i]? = st[i]? := by
  have h0 : HasFns N.table (putG N.table (.tab st.length) g) (st ++ [.tab []]) st.length [] := ⟨putG_same _ _ _, [], by simp, rfl, by simp⟩
  obtain ⟨st1, e1, h1, l1, k1⟩ := ev_define (H := H) (n := n) (run := run) (k := N.max) (ps := [N.t]) (b := tableMaxBody) (p := false) h0 (by simp) (by decide)
  obtain ⟨st2, e2, h2, l2, k2⟩ := ev_define (H := H) (n := n) (run := run) (k := N.maxkey) (ps := [N.t]) (b := tableMaxKeyBody) (p := false) h1 (by simp) (by decide)
  obtain ⟨st3, e3, h3, l3, k3⟩ := ev_define (H := H) (n := n) (run := run) (k := N.min) (ps := [N.t]) (b := tableMinBody) (p := false) h2 (by simp) (by decide)
  obtain ⟨st4, e4, h4, l4, k4⟩ := ev_define (H := H) (n := n) (run := run) (k := N.minkey) (ps := [N.t]) (b := tableMinKeyBody) (p := false) h3 (by simp) (by decide)
  obtain ⟨st5, e5, h5, l5, k5⟩ := ev_define (H := H) (n := n) (run := run) (k := N.print) (ps := [N.t]) (b := tablePrintBody) (p := false) h4 (by simp) (by decide)
  obtain ⟨st6, e6, h6, l6, k6⟩ := ev_define (H := H) (n := n) (run := run) (k := N.swap) (ps := [N.t, N.i, N.j]) (b := tableSwapBody) (p := false) h5 (by simp) (by decide)
  obtain ⟨st7, e7, h7, l7, k7⟩ := ev_define (H := H) (n := n) (run := run) (k := N.cmp_number) (ps := [N.a, N.b]) (b := tableCmpNumberBody) (p := false) h6 (by simp) (by decide)
  obtain ⟨st8, e8, h8, l8, k8⟩ := ev_define (H := H) (n := n) (run := run) (k := N.sort) (ps := [N.t, N.cmp]) (b := tableSortBody) (p := false) h7 (by simp) (by decide)
  obtain ⟨st9, e9, h9, l9, k9⟩ := ev_define (H := H) (n := n) (run := run) (k := N.shuffle) (ps := [N.t]) (b := tableShuffleBody) (p := false) h8 (by simp) (by decide)
  have e0 : eval H n run (.assign (.id N.table) .tnew) false ⟨g, st, .top⟩ = .ok [] ⟨putG N.table (.tab st.length) g, st ++ [.tab []], .top⟩ := by
    rw [eval, if_pos (show isRef (.id N.table) = true from rfl)]
    have h0 : eval H n run (.id N.table) true ⟨g, st, .top⟩ = .ok [] ⟨g, st, .top⟩ := by rw [eval]; rfl
    exact (ev_bind h0).trans ((ev_bind (ev_one rfl ev_tnew)).trans rfl)
  refine ⟨st9, ev_seq e0 (ev_seq e1 (ev_seq e2 (ev_seq e3 (ev_seq e4 (ev_seq e5 (ev_seq e6 (ev_seq e7 (ev_seq e8 (ev_seq e9 ev_skip))))))))), h9, fun i hi => ?_⟩
  rw [List.length_append, List.length_singleton] at l1 k1
  rw [k9 i (by omega) (by omega), k8 i (by omega) (by omega), k7 i (by omega) (by omega), k6 i (by omega) (by omega), k5 i (by omega) (by omega), k4 i (by omega) (by omega), k3 i (by omega) (by omega),
    k2 i (by omega) (by omega), k1 i (by omega) (by omega), List.getElem?_append_left hi]

end Buzz.Props
