import Verif.Table
import Verif.Swarm
import Verif.Props.Compare

/-
Functions that visit a table entry by entry: foreach, map, reduce and filter of src/buzz/buzztype.c, and kin, nonkin, foreach, map,
reduce and filter of src/buzz/buzzneighbors.c.

`buzzdict_foreach` visits `Dict.entries` in order (C04).  A call back into the machine is a function `call` on an abstract machine
state `σ`: it either leaves the machine ready with a result, or in error.  A nil result is `none`.  The table visited must not be
changed by the callback (the C code holds pointers into it).
-/
namespace Buzz.Hof

open Buzz.Msg Buzz.Swarm

/-- The outcome of `buzzvm_closure_call` followed by taking the result off the stack. -/
inductive Ret (σ R : Type) where
  | ready (s : σ) (r : R)
  | error (s : σ)
  deriving DecidableEq, Repr

/-- The state of a traversal: the machine, whether it is still ready, and the result so far. -/
structure Tr (σ A : Type) where
  s : σ
  ready : Bool
  acc : A
  deriving DecidableEq, Repr

variable {σ V R A : Type}

/-- One entry: nothing happens unless the machine is ready (buzztype.c 300, 346, 412, 466; buzzneighbors.c 351, 402, 478, 546). -/
def visit (call : σ → A → Obj → V → Ret σ R) (keep : A → Obj → V → R → Res A) (x : Tr σ A) (e : Obj × V) : Res (Tr σ A) :=
  if x.ready then
    match call x.s x.acc e.1 e.2 with
    | .error s => .ok { x with s := s, ready := false }
    | .ready s r => do
      let a ← keep x.acc e.1 e.2 r
      pure { x with s := s, acc := a }
  else .ok x

/-- `buzzdict_foreach` with one of the functions above. -/
def traverse (call : σ → A → Obj → V → Ret σ R) (keep : A → Obj → V → R → Res A) (s : σ) (a : A) (t : Table.Tbl V) :
    Res (Tr σ A) :=
  (Dict.entries t).foldlM (visit call keep) ⟨s, true, a⟩

/-- `buzzobj_foreach` (buzztype.c 297-327) and `buzzneighbors_foreach` (buzzneighbors.c 348-383): the result is dropped. -/
def forEach (call : σ → Obj → V → Ret σ R) (s : σ) (t : Table.Tbl V) : Res (Tr σ Unit) :=
  traverse (fun s _ k v => call s k v) (fun _ _ _ _ => .ok ()) s () t

/-- `buzzobj_map` (buzztype.c 338-394): a nil result removes the key. -/
def map (sc : Bytes → Bytes → Int) (call : σ → Obj → V → Ret σ (Option V)) (s : σ) (t : Table.Tbl V) :
    Res (Tr σ (Table.Tbl V)) :=
  traverse (fun s _ k v => call s k v) (fun r k _ x => Table.put sc r k x) s (Dict.new 10) t

/-- `buzzneighbors_map` (buzzneighbors.c 394-460): a nil result is stored. -/
def nmap (sc : Bytes → Bytes → Int) (call : σ → Obj → V → Ret σ (Option V)) (s : σ) (t : Table.Tbl V) :
    Res (Tr σ (Table.Tbl (Option V))) :=
  traverse (fun s _ k v => call s k v) (fun r k _ x => Table.set sc r k x) s (Dict.new 10) t

/-- The test of `buzzobj_filter_entry` (buzztype.c 483-486) and `neighbor_filter_each` (buzzneighbors.c 562-565): not nil and not the
integer 0.  `zero` tells whether an object is the integer 0. -/
def judge (zero : V → Bool) : Option V → Bool
  | none => false
  | some v => !zero v

/-- `buzzobj_filter` (buzztype.c 458-513) and `buzzneighbors_filter` (buzzneighbors.c 538-608). -/
def filter (sc : Bytes → Bytes → Int) (zero : V → Bool) (call : σ → Obj → V → Ret σ (Option V)) (s : σ) (t : Table.Tbl V) :
    Res (Tr σ (Table.Tbl V)) :=
  traverse (fun s _ k v => call s k v) (fun r k v x => if judge zero x then Table.set sc r k v else .ok r) s (Dict.new 10) t

/-- `buzzobj_reduce` (buzztype.c 404-447) and `buzzneighbors_reduce` (buzzneighbors.c 470-527). -/
def reduce (call : σ → R → Obj → V → Ret σ R) (s : σ) (a : R) (t : Table.Tbl V) : Res (Tr σ R) :=
  traverse call (fun _ _ _ x => .ok x) s a t

/-! ### kin and nonkin -/

/-- The swarm id on top of the swarm stack, -1 if there is none (buzzneighbors.c 207-220, 269-282).  No argument is possible, so the
position is always 1. -/
def topSwarm (stack : List Nat) : Int :=
  match stack with
  | [] => -1
  | id :: _ => id

/-- `rid->i.value` as a 16-bit robot id; for a key that is no integer another member of the union is read. -/
def ridOf : Obj → Res Nat
  | .int i => .ok (u16 i)
  | _ => .ub

/-- `neighbor_filter_kin` (188-203). -/
def kinEntry (sc : Bytes → Bytes → Int) (m : Members) (sid : Int) (r : Table.Tbl V) (e : Obj × V) : Res (Table.Tbl V) := do
  let rid ← if sid < 0 then .ok 0 else ridOf e.1
  if sid < 0 ∨ isIn m rid (u16 sid) then Table.set sc r e.1 e.2 else pure r

/-- `neighbor_filter_nonkin` (254-267). -/
def nonkinEntry (sc : Bytes → Bytes → Int) (m : Members) (sid : Int) (r : Table.Tbl V) (e : Obj × V) : Res (Table.Tbl V) := do
  let rid ← ridOf e.1
  if !isIn m rid (u16 sid) then Table.set sc r e.1 e.2 else pure r

/-- `buzzneighbors_kin` (205-249): the new `poses` field; `none` if there is no data. -/
def kin (sc : Bytes → Bytes → Int) (m : Members) (stack : List Nat) (data : Option (Table.Tbl V)) : Res (Option (Table.Tbl V)) :=
  match data with
  | none => .ok none
  | some d => do
    let r ← (Dict.entries d).foldlM (kinEntry sc m (topSwarm stack)) (Dict.new 10)
    pure (some r)

/-- `buzzneighbors_nonkin` (269-314): the new `poses` field; `none` if there is no data or no swarm. -/
def nonkin (sc : Bytes → Bytes → Int) (m : Members) (stack : List Nat) (data : Option (Table.Tbl V)) :
    Res (Option (Table.Tbl V)) :=
  if topSwarm stack ≥ 0 then
    match data with
    | none => .ok none
    | some d => do
      let r ← (Dict.entries d).foldlM (nonkinEntry sc m (topSwarm stack)) (Dict.new 10)
      pure (some r)
  else .ok none

/-! ### Building a table entry by entry -/

variable {sc : Bytes → Bytes → Int} {S : Obj → Prop}

/-- Entries with distinct keys put one by one into a table without these keys. -/
theorem build_spec {W : Type} (H : Table.Homog sc S) (f : Obj × V → Option W) (g : Table.Tbl W → Obj × V → Res (Table.Tbl W))
    (hg : ∀ t e, g t e = Table.put sc t e.1 (f e) ∨ (f e = none ∧ g t e = .ok t)) :
    ∀ (es : List (Obj × V)), es.Pairwise (fun a b => a.1 ≠ b.1) → (∀ e ∈ es, S e.1) →
      ∀ (t : Table.Tbl W), Dict.WF Table.hashN Table.eqd t → Table.Keys S t →
        (∀ e ∈ es, ∀ x ∈ Dict.entries t, x.1 ≠ e.1) →
        ∃ t', es.foldlM g t = .ok t' ∧ Dict.WF Table.hashN Table.eqd t' ∧ Table.Keys S t' ∧
          (Dict.entries t').Perm (Dict.entries t ++ es.filterMap (fun e => (f e).map (fun v => (e.1, v))))
  | [], _, _, t, w, k, _ => ⟨t, rfl, w, k, by simp⟩
  | e :: es, hp, hs, t, w, k, hd => by
    rw [List.pairwise_cons] at hp
    have he := hd e (List.mem_cons_self ..)
    have main : ∃ t1, g t e = .ok t1 ∧ Dict.WF Table.hashN Table.eqd t1 ∧ Table.Keys S t1 ∧
        (Dict.entries t1).Perm (Dict.entries t ++ ((f e).map (fun v => (e.1, v))).toList) := by
      rcases hg t e with h | ⟨h1, h2⟩
      · obtain ⟨t1, h1, h2, h3, h4⟩ := Table.put_spec H w k (hs e (List.mem_cons_self ..)) (f e)
        refine ⟨t1, by rw [h, h1], h2, h3, ?_⟩
        have : (Dict.entries t).filter (fun x => !Table.eqd e.1 x.1) = Dict.entries t := by
          rw [List.filter_eq_self]
          intro x hx
          simp only [Table.eqd, Bool.not_eq_true', decide_eq_false_iff_not]
          exact fun h => he x hx h.symm
        rwa [this] at h4
      · exact ⟨t, h2, w, k, by simp [h1]⟩
    obtain ⟨t1, h1, w1, k1, p1⟩ := main
    obtain ⟨t', h2, w2, k2, p2⟩ := build_spec H f g hg es hp.2 (fun x hx => hs x (List.mem_cons_of_mem _ hx)) t1 w1 k1 (by
      intro x hx y hy
      rcases List.mem_append.mp (p1.mem_iff.mp hy) with h | h
      · exact hd x (List.mem_cons_of_mem _ hx) y h
      · cases hf : f e with
        | none => rw [hf] at h; simp at h
        | some v => rw [hf] at h; simp at h; rw [h]; exact hp.1 x hx)
    refine ⟨t', by rw [List.foldlM_cons, h1]; exact h2, w2, k2, ?_⟩
    refine p2.trans ?_
    rw [List.filterMap_cons]
    cases hf : f e with
    | none =>
      rw [hf] at p1
      simp only [Option.map_none, Option.toList_none, List.append_nil] at p1 ⊢
      exact p1.append_right _
    | some v =>
      rw [hf] at p1
      simp only [Option.map_some]
      have := p1.append_right (es.filterMap (fun e => (f e).map (fun v => (e.1, v))))
      simpa using this

/-- Looking up a key among entries with distinct keys does not depend on their order. -/
theorem find_perm {W : Type} {l l' : List (Obj × W)} (h : l.Perm l') (hp : l.Pairwise (fun a b => a.1 ≠ b.1)) (k : Obj) :
    l.find? (fun e => Table.eqd k e.1) = l'.find? (fun e => Table.eqd k e.1) := by
  have hp' : l'.Pairwise (fun a b => a.1 ≠ b.1) := h.pairwise hp (fun h => h.symm)
  have key : ∀ {m : List (Obj × W)}, m.Pairwise (fun a b => a.1 ≠ b.1) → ∀ x, m.find? (fun e => Table.eqd k e.1) = some x ↔ x ∈ m ∧ x.1 = k := by
    intro m hm x
    induction m with
    | nil => simp
    | cons a m ih =>
      rw [List.pairwise_cons] at hm
      by_cases ha : k = a.1
      · rw [List.find?_cons_of_pos (p := fun e : Obj × W => Table.eqd k e.1) (by simp [Table.eqd, ha])]
        simp only [Option.some.injEq, List.mem_cons]
        constructor
        · rintro rfl; exact ⟨.inl rfl, ha.symm⟩
        · rintro ⟨h | h, hx⟩
          · exact h.symm
          · exact absurd (ha.symm.trans hx.symm) (hm.1 x h)
      · rw [List.find?_cons_of_neg (p := fun e : Obj × W => Table.eqd k e.1) (by simp [Table.eqd, ha]), ih hm.2]
        simp only [List.mem_cons]
        constructor
        · rintro ⟨h, hx⟩; exact ⟨.inr h, hx⟩
        · rintro ⟨h | h, hx⟩
          · exact absurd (by rw [← hx, h]) ha
          · exact ⟨h, hx⟩
  cases h1 : l.find? (fun e => Table.eqd k e.1) with
  | some x => rw [eq_comm, key hp', ← h.mem_iff, ← key hp, h1]
  | none =>
    cases h2 : l'.find? (fun e => Table.eqd k e.1) with
    | none => rfl
    | some x =>
      rw [key hp', ← h.mem_iff, ← key hp, h1] at h2
      exact absurd h2 (by simp)

theorem find_filterMap {W : Type} (f : Obj × V → Option W) (k : Obj) : ∀ (es : List (Obj × V)), es.Pairwise (fun a b => a.1 ≠ b.1) →
    ((es.filterMap (fun e => (f e).map (fun v => (e.1, v)))).find? (fun e => Table.eqd k e.1)).map (·.2) =
      (es.find? (fun e => Table.eqd k e.1)).bind f
  | [], _ => rfl
  | e :: es, hp => by
    rw [List.pairwise_cons] at hp
    have ih := find_filterMap f k es hp.2
    by_cases hk : k = e.1
    · rw [List.find?_cons_of_pos (p := fun e : Obj × V => Table.eqd k e.1) (by simp [Table.eqd, hk])]
      rw [List.filterMap_cons]
      cases hf : f e with
      | some v => simp [hf, Table.eqd, hk]
      | none =>
        simp only [Option.map_none, Option.bind_some, hf]
        rw [ih]
        have : es.find? (fun x => Table.eqd k x.1) = none := by
          rw [List.find?_eq_none]
          intro x hx
          simp only [Table.eqd, decide_eq_true_eq]
          rw [hk]; exact hp.1 x hx
        rw [this]; rfl
    · rw [List.find?_cons_of_neg (p := fun e : Obj × V => Table.eqd k e.1) (by simp [Table.eqd, hk]), ← ih, List.filterMap_cons]
      cases hf : f e with
      | some v =>
        simp only [Option.map_some]
        rw [List.find?_cons_of_neg (p := fun e : Obj × W => Table.eqd k e.1) (by simp [Table.eqd, hk])]
      | none => rfl

theorem entries_distinct {t : Table.Tbl V} (w : Dict.WF Table.hashN Table.eqd t) :
    (Dict.entries t).Pairwise (fun a b => a.1 ≠ b.1) := by
  have := Dict.entries_uniq Table.eqd_lawful w
  refine this.imp ?_
  intro a b h
  simpa [Table.eqd] using h

/-- A table built from the entries of another one: each key holds what `f` makes of its entry. -/
theorem build_get {W : Type} (H : Table.Homog sc S) (f : Obj × V → Option W) (g : Table.Tbl W → Obj × V → Res (Table.Tbl W))
    (hg : ∀ t e, g t e = Table.put sc t e.1 (f e) ∨ (f e = none ∧ g t e = .ok t))
    (t : Table.Tbl V) (w : Dict.WF Table.hashN Table.eqd t) (k : Table.Keys S t) :
    ∃ r, (Dict.entries t).foldlM g (Dict.new 10) = .ok r ∧ Dict.WF Table.hashN Table.eqd r ∧ Table.Keys S r ∧
      (Dict.entries r).length = ((Dict.entries t).filter (fun e => (f e).isSome)).length ∧
      ∀ key, S key → ∃ o, Table.get sc t key = .ok o ∧ Table.get sc r key = .ok (o.bind fun v => f (key, v)) := by
  obtain ⟨r, h1, h2, h3, h4⟩ := build_spec H f g hg (Dict.entries t) (entries_distinct w) k (Dict.new 10)
    (Dict.new_wf (by omega)) (by intro e he; rw [Dict.entries_new] at he; cases he)
    (by intro e _ x hx; rw [Dict.entries_new] at hx; cases hx)
  rw [Dict.entries_new, List.nil_append] at h4
  refine ⟨r, h1, h2, h3, ?_, ?_⟩
  · rw [h4.length_eq]
    clear h1 h4 h3 h2 k w
    induction Dict.entries t with
    | nil => rfl
    | cons a l ih =>
      rw [List.filterMap_cons]
      cases hf : f a with
      | none => simpa [hf] using ih
      | some v => simpa [hf] using ih
  · intro key hk
    refine ⟨_, Table.get_spec H w k hk, ?_⟩
    rw [Table.get_spec H h2 h3 hk, find_perm h4 (entries_distinct h2), find_filterMap f key _ (entries_distinct w)]
    congr 1
    cases hf : (Dict.entries t).find? (fun e => Table.eqd key e.1) with
    | none => rfl
    | some x =>
      have := List.find?_some (p := fun e : Obj × V => Table.eqd key e.1) hf
      simp only [Table.eqd, decide_eq_true_eq] at this
      simp [this]

end Buzz.Hof
