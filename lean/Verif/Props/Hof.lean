import Verif.Hof

/-
C31 (kin and nonkin) and C50 (table higher-order functions).
-/
namespace Buzz.Props

open Buzz.Hof Buzz.Swarm Buzz.Msg

variable {σ V R : Type} {sc : Bytes → Bytes → Int} {S : Obj → Prop}

/-! ## C31 -/

/-- A table of neighbours as `buzzneighbors_add` builds it: well formed, keys are robot ids. -/
structure Poses (d : Table.Tbl V) : Prop where
  wf : Dict.WF Table.hashN Table.eqd d
  keys : ∀ e ∈ Dict.entries d, ∃ n : Nat, n < 65536 ∧ e.1 = .int n

theorem Poses.isInt {d : Table.Tbl V} (h : Poses d) : Table.Keys IsInt d := by
  intro e he
  obtain ⟨n, _, hn⟩ := h.keys e he
  exact ⟨n, hn⟩

theorem u16_nat {n : Nat} (h : n < 65536) : u16 (n : Int) = n := by unfold u16; omega

/-- Agree with a specified entry function on the entries of a table only. -/
theorem foldlM_congr {A B : Type} {f g : A → B → Res A} : ∀ (l : List B), (∀ a, ∀ b ∈ l, f a b = g a b) → ∀ a, l.foldlM f a = l.foldlM g a
  | [], _, _ => rfl
  | b :: l, h, a => by
    rw [List.foldlM_cons, List.foldlM_cons, h a b (List.mem_cons_self ..)]
    cases g a b <;> try rfl
    exact foldlM_congr l (fun a b hb => h a b (List.mem_cons_of_mem _ hb)) _

/-- A table filtered by robot id. -/
theorem filter_by_id {d : Table.Tbl V} (h : Poses d) (p : Nat → Bool) (g : Table.Tbl V → Obj × V → Res (Table.Tbl V))
    (hg : ∀ t (n : Nat) v, n < 65536 → g t (.int n, v) = if p n then Table.set sc t (.int n) v else .ok t) :
    ∃ r, (Dict.entries d).foldlM g (Dict.new 10) = .ok r ∧ Poses r ∧
      ∀ n : Nat, n < 65536 → ∃ o, Table.get sc d (.int n) = .ok o ∧ Table.get sc r (.int n) = .ok (if p n then o else none) := by
  let q : Obj × V → Option V := fun e => match e.1 with | .int i => if p i.toNat then some e.2 else none | _ => none
  let g' : Table.Tbl V → Obj × V → Res (Table.Tbl V) := fun t e => match q e with | some v => Table.set sc t e.1 v | none => .ok t
  have hc : ∀ t, ∀ e ∈ Dict.entries d, g t e = g' t e := by
    intro t e he
    obtain ⟨n, hn, hk⟩ := h.keys e he
    obtain ⟨k, v⟩ := e
    simp only at hk
    subst hk
    rw [hg t n v hn]
    simp only [g', q, Int.toNat_natCast]
    split <;> rfl
  obtain ⟨r, h1, h2, h3, _, h4⟩ := build_get (C13_int_keys sc) q g' (by
    intro t e
    simp only [g']
    cases hq : q e with
    | none => right; simp
    | some v => left; simp [Table.put]) d h.wf h.isInt
  rw [foldlM_congr _ hc]
  refine ⟨r, h1, ⟨h2, ?_⟩, ?_⟩
  · intro e he
    obtain ⟨i, hi⟩ := h3 e he
    obtain ⟨o, h5, h6⟩ := h4 e.1 ⟨i, hi⟩
    have hin : (Dict.entries r).find? (fun x => Table.eqd e.1 x.1) ≠ none := by
      intro hnone
      rw [List.find?_eq_none] at hnone
      exact hnone e he (by simp [Table.eqd])
    rw [Table.get_spec (C13_int_keys sc) h2 h3 ⟨i, hi⟩] at h6
    rw [Table.get_spec (C13_int_keys sc) h.wf h.isInt ⟨i, hi⟩] at h5
    cases hf : (Dict.entries d).find? (fun x => Table.eqd e.1 x.1) with
    | none =>
      rw [hf] at h5
      simp only [Option.map_none, Res.ok.injEq] at h5
      subst h5
      simp only [Option.bind_none, Res.ok.injEq, Option.map_eq_none_iff] at h6
      exact absurd h6 hin
    | some x =>
      have hx := List.find?_some (p := fun x : Obj × V => Table.eqd e.1 x.1) hf
      simp only [Table.eqd, decide_eq_true_eq] at hx
      rw [hx]
      exact h.keys x (List.mem_of_find?_eq_some hf)
  · intro n hn
    obtain ⟨o, h5, h6⟩ := h4 (.int n) ⟨n, rfl⟩
    refine ⟨o, h5, ?_⟩
    rw [h6]
    cases o with
    | none => simp
    | some v => simp [q]

/-- **C31.** In a swarm context, with any neighbours and any membership table, a neighbour's data is in `kin()` if the neighbour is
known to be in the current swarm, in `nonkin()` if not, unchanged, and nothing else is in either. -/
theorem C31_partition (m : Members) (sid : Nat) (stack : List Nat) (hsid : sid < 65536) (d : Table.Tbl V) (h : Poses d) :
    ∃ a b, kin sc m (sid :: stack) (some d) = .ok (some a) ∧ nonkin sc m (sid :: stack) (some d) = .ok (some b) ∧
      Poses a ∧ Poses b ∧
      ∀ n : Nat, n < 65536 → ∃ o, Table.get sc d (.int n) = .ok o ∧
        Table.get sc a (.int n) = .ok (if isIn m n sid then o else none) ∧
        Table.get sc b (.int n) = .ok (if isIn m n sid then none else o) := by
  have hs : ¬ ((sid : Int) < 0) := by omega
  obtain ⟨a, a1, a2, a3⟩ := filter_by_id (sc := sc) h (fun n => isIn m n sid) (kinEntry sc m sid) (by
    intro t n v hn
    simp only [kinEntry, if_neg hs, ridOf, Res.ok_bind, u16_nat hn, u16_nat hsid, hs, false_or]
    rfl)
  obtain ⟨b, b1, b2, b3⟩ := filter_by_id (sc := sc) h (fun n => !isIn m n sid) (nonkinEntry sc m sid) (by
    intro t n v hn
    simp only [nonkinEntry, ridOf, Res.ok_bind, u16_nat hn, u16_nat hsid]
    rfl)
  refine ⟨a, b, by simp only [kin, topSwarm, a1]; rfl, ?_, a2, b2, ?_⟩
  · have : topSwarm (sid :: stack) ≥ 0 := by simp [topSwarm]
    simp only [nonkin, this, if_true]
    simp only [topSwarm, b1]
    rfl
  · intro n hn
    obtain ⟨o, h1, h2⟩ := a3 n hn
    obtain ⟨o', h3, h4⟩ := b3 n hn
    rw [h1] at h3
    cases h3
    refine ⟨o, h1, h2, ?_⟩
    rw [h4]
    cases isIn m n sid <;> rfl

/-- **C31** with no swarm context: `kin()` has every neighbour, `nonkin()` has no table of neighbours at all. -/
theorem C31_no_swarm (m : Members) (d : Table.Tbl V) (h : Poses d) :
    (∃ a, kin sc m [] (some d) = .ok (some a) ∧ Poses a ∧
      ∀ n : Nat, n < 65536 → Table.get sc a (.int n) = Table.get sc d (.int n)) ∧
    nonkin sc m [] (some d) = .ok none := by
  constructor
  · obtain ⟨a, a1, a2, a3⟩ := filter_by_id (sc := sc) h (fun _ => true) (kinEntry sc m (-1)) (by
      intro t n v hn
      simp [kinEntry])
    refine ⟨a, by simp only [kin, topSwarm, a1]; rfl, a2, ?_⟩
    intro n hn
    obtain ⟨o, h1, h2⟩ := a3 n hn
    rw [h1, h2]; rfl
  · rfl

/-- C31 is not vacuous: two neighbours, one in swarm 7. -/
example : (do
    let t ← Table.set (fun _ _ => 0) (Dict.new 10 : Table.Tbl Nat) (.int 3) 30
    let t ← Table.set (fun _ _ => 0) t (.int 13) 130
    let a ← kin (fun _ _ => 0) [(13, ⟨[5, 7], 0⟩)] [7] (some t)
    let b ← nonkin (fun _ _ => 0) [(13, ⟨[5, 7], 0⟩)] [7] (some t)
    pure (a.map Dict.entries, b.map Dict.entries)) =
      .ok (some [(.int 13, 130)], some [(.int 3, 30)]) := by decide +kernel

/-! ## C50 -/

/-- A callback that always returns normally: its result is `f`, its effect on the machine `upd`. -/
def pureCall (f : Obj → V → R) (upd : σ → Obj → V → σ) : σ → Obj → V → Ret σ R := fun s k v => .ready (upd s k v) (f k v)

/-- A traversal with such a callback is a fold for the machine and, separately, a fold for the result. -/
theorem traverse_pure {A : Type} (f : A → Obj → V → R) (upd : σ → Obj → V → σ) (keep : A → Obj → V → R → Res A) (a' : A) :
    ∀ (es : List (Obj × V)) (s : σ) (a : A), es.foldlM (fun a e => keep a e.1 e.2 (f a e.1 e.2)) a = .ok a' →
      es.foldlM (visit (fun s a k v => .ready (upd s k v) (f a k v)) keep) ⟨s, true, a⟩ =
        .ok ⟨es.foldl (fun s e => upd s e.1 e.2) s, true, a'⟩
  | [], s, a, h => by
    simp only [List.foldlM_nil, Res.pure_eq, Res.ok.injEq] at h
    subst h; rfl
  | e :: es, s, a, h => by
    rw [List.foldlM_cons] at h
    rw [List.foldlM_cons]
    rw [Res.bind_eq_ok] at h
    obtain ⟨a1, h1, h2⟩ := h
    have : visit (fun s a k v => Ret.ready (upd s k v) (f a k v)) keep ⟨s, true, a⟩ e = .ok ⟨upd s e.1 e.2, true, a1⟩ := by
      simp only [visit, if_true, h1, Res.ok_bind, Res.pure_eq]
    rw [this]
    exact traverse_pure f upd keep a' es _ _ h2

/-- **C50** `foreach` calls the function once for each entry, in the order of `Dict.entries`. -/
theorem C50_foreach (f : Obj → V → R) (upd : σ → Obj → V → σ) (s : σ) (t : Table.Tbl V) :
    forEach (pureCall f upd) s t = .ok ⟨(Dict.entries t).foldl (fun s e => upd s e.1 e.2) s, true, ()⟩ := by
  have h : ∀ es : List (Obj × V), es.foldlM (fun (_ : Unit) _ => (.ok () : Res Unit)) () = .ok () := by
    intro es
    induction es with
    | nil => rfl
    | cons e es ih => rw [List.foldlM_cons]; exact ih
  exact traverse_pure (fun _ k v => f k v) upd (fun _ _ _ _ => .ok ()) () (Dict.entries t) s () (h _)

/-- **C50** `map` visits each entry once in that order; the result holds, under each key, the result for that entry; entries whose
result is nil are absent. -/
theorem C50_map (H : Table.Homog sc S) (f : Obj → V → Option V) (upd : σ → Obj → V → σ) (s : σ) (t : Table.Tbl V)
    (w : Dict.WF Table.hashN Table.eqd t) (k : Table.Keys S t) :
    ∃ r, Hof.map sc (pureCall f upd) s t = .ok ⟨(Dict.entries t).foldl (fun s e => upd s e.1 e.2) s, true, r⟩ ∧
      Dict.WF Table.hashN Table.eqd r ∧ Table.Keys S r ∧
      (Dict.entries r).length = ((Dict.entries t).filter (fun e => (f e.1 e.2).isSome)).length ∧
      ∀ key, S key → ∃ o, Table.get sc t key = .ok o ∧ Table.get sc r key = .ok (o.bind (f key)) := by
  obtain ⟨r, h1, h2, h3, h4, h5⟩ := build_get H (fun e : Obj × V => f e.1 e.2) (fun r e => Table.put sc r e.1 (f e.1 e.2))
    (fun _ _ => .inl rfl) t w k
  exact ⟨r, traverse_pure (fun _ k v => f k v) upd _ r _ s _ h1, h2, h3, h4, h5⟩

/-- **C50** `neighbors.map` likewise, but keeps entries whose result is nil. -/
theorem C50_neighbors_map (H : Table.Homog sc S) (f : Obj → V → Option V) (upd : σ → Obj → V → σ) (s : σ) (t : Table.Tbl V)
    (w : Dict.WF Table.hashN Table.eqd t) (k : Table.Keys S t) :
    ∃ r, Hof.nmap sc (pureCall f upd) s t = .ok ⟨(Dict.entries t).foldl (fun s e => upd s e.1 e.2) s, true, r⟩ ∧
      Dict.WF Table.hashN Table.eqd r ∧ Table.Keys S r ∧ (Dict.entries r).length = (Dict.entries t).length ∧
      ∀ key, S key → ∃ o, Table.get sc t key = .ok o ∧ Table.get sc r key = .ok (o.map (f key)) := by
  obtain ⟨r, h1, h2, h3, h4, h5⟩ := build_get H (fun e : Obj × V => some (f e.1 e.2))
    (fun r e => Table.set sc r e.1 (f e.1 e.2)) (fun _ _ => .inl rfl) t w k
  refine ⟨r, traverse_pure (fun _ k v => f k v) upd _ r _ s _ h1, h2, h3, by simpa using h4, ?_⟩
  intro key hk
  obtain ⟨o, h6, h7⟩ := h5 key hk
  refine ⟨o, h6, ?_⟩
  rw [h7]
  cases o <;> rfl

/-- **C50** `filter` visits each entry once in that order and keeps, unchanged, those judged true: result neither nil nor integer 0. -/
theorem C50_filter (H : Table.Homog sc S) (zero : V → Bool) (f : Obj → V → Option V) (upd : σ → Obj → V → σ) (s : σ)
    (t : Table.Tbl V) (w : Dict.WF Table.hashN Table.eqd t) (k : Table.Keys S t) :
    ∃ r, Hof.filter sc zero (pureCall f upd) s t = .ok ⟨(Dict.entries t).foldl (fun s e => upd s e.1 e.2) s, true, r⟩ ∧
      Dict.WF Table.hashN Table.eqd r ∧ Table.Keys S r ∧
      ∀ key, S key → ∃ o, Table.get sc t key = .ok o ∧
        Table.get sc r key = .ok (o.filter fun v => match f key v with | none => false | some x => !zero x) := by
  obtain ⟨r, h1, h2, h3, _, h5⟩ := build_get H
    (fun e : Obj × V => if (match f e.1 e.2 with | none => false | some x => !zero x) then some e.2 else none)
    (fun r e => if judge zero (f e.1 e.2) then Table.set sc r e.1 e.2 else .ok r) (by
      intro t e
      cases hf : f e.1 e.2 with
      | none => right; simp [judge]
      | some x => cases hz : zero x <;> simp [judge, hz, Table.put]) t w k
  refine ⟨r, traverse_pure (fun _ k v => f k v) upd _ r _ s _ h1, h2, h3, ?_⟩
  intro key hk
  obtain ⟨o, h6, h7⟩ := h5 key hk
  refine ⟨o, h6, ?_⟩
  rw [h7]
  cases o with
  | none => rfl
  | some v =>
    cases hf : f key v with
    | none => simp [Option.filter, hf]
    | some x => cases hz : zero x <;> simp [Option.filter, hf, hz]

/-- **C50** `reduce` folds over the entries in that order. -/
theorem C50_reduce (f : R → Obj → V → R) (upd : σ → Obj → V → σ) (s : σ) (a : R) (t : Table.Tbl V) :
    Hof.reduce (fun s a k v => .ready (upd s k v) (f a k v)) s a t =
      .ok ⟨(Dict.entries t).foldl (fun s e => upd s e.1 e.2) s, true, (Dict.entries t).foldl (fun a e => f a e.1 e.2) a⟩ := by
  refine traverse_pure f upd (fun _ _ _ x => .ok x) _ (Dict.entries t) s a ?_
  generalize Dict.entries t = es
  induction es generalizing a with
  | nil => rfl
  | cons e es ih => rw [List.foldlM_cons]; exact ih _

instance : LawfulMonad Res := LawfulMonad.mk' _ (fun x => by cases x <;> rfl) (fun _ _ => rfl) (fun x _ _ => by cases x <;> rfl)

theorem stopped {A : Type} (call : σ → A → Obj → V → Ret σ R) (keep : A → Obj → V → R → Res A) (s : σ) (a : A) :
    ∀ es : List (Obj × V), es.foldlM (visit call keep) ⟨s, false, a⟩ = .ok ⟨s, false, a⟩
  | [] => rfl
  | e :: es => by
    rw [List.foldlM_cons]
    exact stopped call keep s a es

/-- **C50** after the callback fails nothing more is called and the result is not changed: if the visits of the entries before `e`
end with result `x` and the call on `e` fails, the whole traversal ends with that result and the machine as the failing call left
it. -/
theorem C50_error_stops {A : Type} (call : σ → A → Obj → V → Ret σ R) (keep : A → Obj → V → R → Res A) (s : σ) (a : A)
    (t : Table.Tbl V) (before after : List (Obj × V)) (e : Obj × V) (ht : Dict.entries t = before ++ e :: after) (s' s'' : σ) (x : A)
    (hb : before.foldlM (visit call keep) ⟨s, true, a⟩ = .ok ⟨s', true, x⟩) (he : call s' x e.1 e.2 = .error s'') :
    Hof.traverse call keep s a t = .ok ⟨s'', false, x⟩ := by
  unfold Hof.traverse
  rw [ht, List.foldlM_append, hb, Res.ok_bind, List.foldlM_cons]
  have : visit call keep ⟨s', true, x⟩ e = .ok ⟨s'', false, x⟩ := by simp [visit, he]
  rw [this, Res.ok_bind, stopped]

/-- The call on the second of three entries fails: one entry is counted. -/
example : (do
    let t ← Table.set (fun _ _ => 0) (Dict.new 10 : Table.Tbl Nat) (.int 3) 30
    let t ← Table.set (fun _ _ => 0) t (.int 4) 40
    let t ← Table.set (fun _ _ => 0) t (.int 5) 50
    Hof.reduce (fun (n : Nat) (a : Nat) _ v => if v = 40 then .error (n + 1) else .ready (n + 1) (a + v)) 0 0 t)
      = .ok ⟨2, false, 30⟩ := by decide +kernel

/-- C50 is not vacuous: a map that drops one entry and changes another, logging its visits. -/
example : (do
    let t ← Table.set (fun _ _ => 0) (Dict.new 10 : Table.Tbl Nat) (.int 3) 30
    let t ← Table.set (fun _ _ => 0) t (.int 4) 40
    let r ← Hof.map (fun _ _ => 0) (pureCall (fun _ v => if v = 30 then none else some (v + 1)) (fun (l : List Nat) _ v => l ++ [v])) [] t
    pure (r.s, Dict.entries r.acc)) = .ok ([30, 40], [(.int 4, 41)]) := by decide +kernel

end Buzz.Props
