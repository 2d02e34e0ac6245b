import Verif.Sem

/-
Which variables are in scope after a phrase of a program.
-/
namespace Buzz.Lang

open Buzz.Msg Buzz.VM

/-- The variables in scope, without their values. -/
inductive Shape where
  | top
  | inner (xs : List Bytes)
  | fn (xs : List Bytes)

/-- The variables of a scope. -/
def Scope.shape : Scope → Shape
  | .top => .top
  | .inner => .inner []
  | .fn env => .fn (env.map (·.1))

/-- More variables. -/
def Shape.ext : Shape → List Bytes → Shape
  | .top, _ => .top
  | .inner xs, ds => .inner (xs ++ ds)
  | .fn xs, ds => .fn (xs ++ ds)

@[simp] theorem Shape.ext_nil (h : Shape) : h.ext [] = h := by cases h <;> simp [Shape.ext]

theorem Shape.ext_ext (h : Shape) (a b : List Bytes) : (h.ext a).ext b = h.ext (a ++ b) := by cases h <;> simp [Shape.ext]

/-- An evaluation that ends adds the variables `ds`. -/
def Adds {α : Type} (ds : List Bytes) (x : Ev α) : Prop := ∀ s a s', x s = .ok a s' → s'.scope.shape = s.scope.shape.ext ds

theorem bind_ok {α β : Type} {x : Ev α} {f : α → Ev β} {s : St} {b : β} {s' : St} (h : (x >>= f) s = .ok b s') : ∃ a s1, x s = .ok a s1 ∧ f a s1 = .ok b s' := by
  have h' : (match x s with
    | .ok a s => f a s
    | .ret v s => .ret v s
    | .err e => .err e
    | .odd => .odd
    | .time => .time) = Out.ok b s' := h
  cases hx : x s with
  | ok a s1 => rw [hx] at h'; exact ⟨a, s1, rfl, h'⟩
  | _ => rw [hx] at h'; cases h'

theorem Adds.bind {α β : Type} {ds es : List Bytes} {x : Ev α} {f : α → Ev β} (hx : Adds ds x) (hf : ∀ a, Adds es (f a)) : Adds (ds ++ es) (x >>= f) := by
  intro s b s' h
  obtain ⟨a, s1, h1, h2⟩ := bind_ok h
  rw [hf a s1 b s' h2, hx s a s1 h1, Shape.ext_ext]

theorem Adds.bind0 {α β : Type} {ds : List Bytes} {x : Ev α} {f : α → Ev β} (hx : Adds ds x) (hf : ∀ a, Adds [] (f a)) : Adds ds (x >>= f) := by
  have := hx.bind hf
  rwa [List.append_nil] at this

theorem Adds.bindr {α β : Type} {ds : List Bytes} {x : Ev α} {f : α → Ev β} (hx : Adds [] x) (hf : ∀ a, Adds ds (f a)) : Adds ds (x >>= f) := hx.bind hf

theorem adds_pure {α : Type} (a : α) : Adds [] (pure a : Ev α) := by
  intro s b s' h
  cases h
  simp

theorem adds_odd {α : Type} {ds : List Bytes} : Adds ds (odd : Ev α) := by
  intro s b s' h
  cases h

theorem adds_raise {α : Type} {ds : List Bytes} (e : Err) : Adds ds (raise e : Ev α) := by
  intro s b s' h
  cases h

/-- What an expression adds is nothing. -/
theorem adds_one {a : Ast} {x : Ev (List Obj)} (h : Adds (decls a) x) : Adds [] (one a x) := by
  unfold one
  split
  · rename_i e
    rw [e] at h
    refine h.bindr fun l => ?_
    split
    · exact adds_pure _
    · exact adds_odd
  · exact adds_odd

theorem one_decls {a : Ast} {x : Ev (List Obj)} {s s' : St} {v : Obj} (h : one a x s = .ok v s') : decls a = [] := by
  unfold one at h
  split at h
  · rename_i e; exact e
  · cases h

theorem adds_one' {a : Ast} {x : Ev (List Obj)} (h : Adds (decls a) x) : Adds (decls a) (one a x) := by
  intro s v s' e
  rw [one_decls e]
  exact adds_one h s v s' e

theorem adds_alloc (t : Thing) : Adds [] (alloc t) := by
  intro s a s' h
  cases h
  simp

theorem adds_look (l : Nat) : Adds [] (look l) := by
  intro s a s' h
  unfold look at h
  split at h
  · cases h; simp
  · cases h

theorem adds_change (l : Nat) (t : Thing) : Adds [] (change l t) := by
  intro s a s' h
  cases h
  simp

theorem adds_const (H : Host) (t : Bytes) : Adds [] (const H t) := by
  unfold const
  split
  · exact adds_pure _
  · exact adds_odd

theorem adds_result (r : Option (Res Obj)) : Adds [] (result r) := by
  unfold result
  split
  · exact adds_raise _
  · exact adds_pure _
  · exact adds_odd

theorem adds_binary (H : Host) (o : Bin) (x y : Obj) : Adds [] (binary H o x y) := by
  unfold binary
  split
  · split
    · exact adds_odd
    · exact adds_result _
  · exact adds_result _

theorem adds_getVar (x : Bytes) : Adds [] (getVar x) := by
  intro s a s' h
  unfold getVar at h
  split at h <;> cases h <;> simp

theorem assignTo_names (x : Bytes) (v : Obj) (env : List (Bytes × Obj)) : (assignTo x v env).map (·.1) = env.map (·.1) := by
  unfold assignTo
  rw [List.map_map]
  refine List.map_congr_left fun e _ => ?_
  simp only [Function.comp]
  split
  · rename_i h; exact h.symm
  · rfl

theorem adds_putGlobal (x : Bytes) (v : Obj) : Adds [] (putGlobal x v) := by
  intro s a s' h
  cases h
  simp

theorem adds_setVar (x : Bytes) (v : Obj) : Adds [] (setVar x v) := by
  intro s a s' h
  unfold setVar at h
  split at h
  · rename_i env e
    split at h
    · cases h
      simp [Scope.shape, assignTo_names, e]
    · exact adds_putGlobal x v s a s' h
  · exact adds_putGlobal x v s a s' h

theorem adds_declare (x : Bytes) (v : Obj) : Adds [x] (declare x v) := by
  intro s a s' h
  unfold declare at h
  split at h
  · rename_i e
    rw [adds_putGlobal x v s a s' h, e]
    rfl
  · cases h
  · rename_i env e
    split at h
    · cases h
    · cases h
      simp [Scope.shape, e, Shape.ext]

theorem adds_tabGet (t k : Obj) : Adds [] (tabGet t k) := by
  unfold tabGet
  split
  · refine (adds_look _).bind0 fun a => ?_
    split
    · split
      · exact adds_pure _
      · exact adds_odd
    · exact adds_odd
  · exact adds_raise _

theorem adds_tabPut (t k v : Obj) : Adds [] (tabPut t k v) := by
  unfold tabPut
  split
  · refine (adds_look _).bind0 fun a => ?_
    split
    · split
      · split
        · split
          · exact adds_change _ _
          · refine (adds_look _).bind0 fun c => ?_
            split
            · exact (adds_alloc _).bind0 fun f => adds_change _ _
            · exact adds_odd
          · exact adds_change _ _
        · exact adds_odd
      · exact adds_raise _
    · exact adds_odd
  · exact adds_raise _

theorem adds_newFn (ps : List Bytes) (b : Ast) (env : List (Bytes × Obj)) : Adds [] (newFn ps b env) :=
  (adds_alloc _).bind0 fun _ => adds_pure _

theorem adds_closure (ps : List Bytes) (b : Ast) : Adds [] (closure ps b) := by
  intro s a s' h
  unfold closure at h
  split at h
  · cases h
  · split at h
    · exact adds_newFn _ _ _ s a s' h
    · cases h
  · split at h
    · exact adds_newFn _ _ _ s a s' h
    · cases h

theorem adds_inFunction (env : List (Bytes × Obj)) (x : Ev (List Obj)) : Adds [] (inFunction env x) := by
  intro s a s' h
  unfold inFunction at h
  split at h <;> cases h <;> simp

theorem adds_inHost (x : Ev Obj) : Adds [] (inHost x) := by
  intro s a s' h
  unfold inHost at h
  split at h <;> cases h
  simp

theorem adds_apply (lib : Lib) (run : Ast → Ev (List Obj)) (c : Obj) (vs : List Obj) : Adds [] (apply lib run c vs) := by
  unfold apply
  split
  · exact adds_odd
  · split
    · refine (adds_look _).bind0 fun t => ?_
      split
      · split
        · exact adds_inFunction _ _
        · exact adds_odd
      · exact adds_inHost _
      · exact adds_odd
    · exact adds_raise _

theorem adds_leave {ds : List Bytes} (v : Obj) : Adds ds (leave v) := by
  intro s a s' h
  unfold leave at h
  split at h <;> cases h

theorem adds_guarded {ds : List Bytes} {x : Ev (List Obj)} (ht : ∀ s a s', s.scope = .top → x s = .ok a s' → s'.scope.shape = .top)
    (h : ds = [] → Adds [] x) : Adds ds (guarded ds x) := by
  intro s a s' e
  unfold guarded at e
  split at e
  · rename_i hs
    rw [ht s a s' hs e, hs]
    rfl
  · split at e
    · rename_i hd
      rw [hd]
      exact h hd s a s' e
    · cases e

theorem shape_top {c : Scope} (h : c.shape = .top) : c = .top := by cases c <;> simp_all [Scope.shape]

/-- At the top nothing is added. -/
theorem Adds.top {α : Type} {ds : List Bytes} {x : Ev α} (h : Adds ds x) {s s' : St} {a : α} (hs : s.scope = .top) (e : x s = .ok a s') : s'.scope = .top := by
  have := h s a s' e
  rw [hs] at this
  exact shape_top this

theorem loop_top {c : Ev Obj} {b : Ev Unit} {ds es : List Bytes} (hc : Adds ds c) (hb : Adds es b) : ∀ (n : Nat) (s : St) (a : List Obj) (s' : St), s.scope = .top →
    loop c b n s = .ok a s' → s'.scope = .top
  | 0, s, a, s', _, h => by cases h
  | n + 1, s, a, s', hs, h => by
    obtain ⟨v, s1, h1, h2⟩ := bind_ok h
    have e1 := hc.top hs h1
    split at h2
    · obtain ⟨_, s2, h3, h4⟩ := bind_ok h2
      exact loop_top hc hb n s2 a s' (hb.top e1 h3) h4
    · cases h2
      exact e1

theorem loop_adds {c : Ev Obj} {b : Ev Unit} (hc : Adds [] c) (hb : Adds [] b) : ∀ n : Nat, Adds [] (loop c b n)
  | 0 => by intro s a s' h; cases h
  | n + 1 => by
    refine hc.bind0 fun v => ?_
    split
    · exact hb.bind0 fun _ => loop_adds hc hb n
    · exact adds_pure _

theorem adds_noValue {ds : List Bytes} {x : Ev (List Obj)} (h : Adds ds x) : Adds ds (noValue x) := by
  unfold noValue
  refine h.bind0 fun l => ?_
  split
  · exact adds_pure _
  · exact adds_odd

theorem adds_inBlock {ds : List Bytes} {x : Ev Unit} (h : Adds ds x) : Adds [] (inBlock x) := by
  intro s a s' e
  unfold inBlock at e
  split at e
  · rename_i hs
    split at e
    · cases e
      simp [Scope.shape, hs]
    · rename_i hn
      exact absurd e (by intro e; exact hn _ _ e)
  · rename_i hs
    have := h s a s' e
    rw [hs] at this ⊢
    cases hc : s'.scope with
    | top => rw [hc] at this; cases this
    | inner => simp [Scope.shape]
    | fn env => rw [hc] at this; cases this
  · rename_i env hs
    split at e
    · rename_i b s1 h1
      have := h s _ s1 h1
      split at e
      · rename_i env' h2
        cases e
        rw [hs, h2] at this
        simp only [Scope.shape, Shape.ext, Shape.fn.injEq] at this
        rw [hs]
        simp only [Scope.shape, List.map_take, this, Shape.ext_nil, Shape.fn.injEq]
        rw [List.take_append_of_le_length (by simp)]
        rw [List.take_of_length_le (by simp)]
      · cases e
    · rename_i hn
      exact absurd e (by intro e; exact hn _ _ e)

/-- **After a phrase exactly the variables it declares are added to the scope.** -/
theorem eval_adds (H : Host) (n : Nat) (run : Ast → Ev (List Obj)) (a : Ast) : ∀ place, Adds (decls a) (eval H n run a place) := by
  induction a with
  | nil => exact fun _ => adds_pure _
  | num t => exact fun _ => (adds_const _ _).bind0 fun _ => adds_pure _
  | str s => exact fun _ => adds_pure _
  | bin o a b iha ihb =>
    exact fun _ => (adds_one' (iha _)).bind fun x => (adds_one' (ihb _)).bind0 fun y => (adds_binary H o x y).bind0 fun _ => adds_pure _
  | un o a iha => exact fun _ => (adds_one' (iha _)).bind0 fun x => Adds.bind0 (adds_result (unV o x)) fun _ => adds_pure _
  | lam ps b => exact fun _ => (adds_closure _ _).bind0 fun _ => adds_pure _
  | tnew => exact fun _ => (adds_alloc _).bind0 fun _ => adds_pure _
  | tset t k e iht ihe =>
    refine fun _ => (adds_one' (iht _)).bind fun x => ?_
    refine Adds.bindr (x := keyVal H k) ?_ fun k => (adds_one' (ihe _)).bind0 fun v => (adds_tabPut x k v).bind0 fun _ => adds_pure _
    cases k
    · exact adds_pure _
    · exact adds_const _ _
  | id x =>
    intro p
    cases p
    · exact (adds_getVar _).bind0 fun _ => adds_pure _
    · exact adds_pure _
  | field r s ihr =>
    intro p
    refine (adds_one' (ihr _)).bind0 fun t => ?_
    cases p
    · exact (adds_tabGet t _).bind0 fun _ => adds_pure _
    · exact adds_pure _
  | index r e ihr ihe =>
    intro p
    refine (adds_one' (ihr _)).bind fun t => (adds_one' (ihe _)).bind0 fun k => ?_
    cases p
    · exact (adds_tabGet t k).bind0 fun _ => adds_pure _
    · exact adds_pure _
  | call f as ihf iha =>
    intro p
    simp only [eval]
    split
    · exact (adds_one' (ihf _)).bind fun c => (iha _).bind0 fun vs => (adds_apply H.lib run c vs).bind0 fun _ => adds_pure _
    · exact adds_odd
  | noArg => exact fun _ => adds_pure _
  | arg as a iha ihb => exact fun _ => (iha _).bind fun _ => (adds_one' (ihb _)).bind0 fun _ => adds_pure _
  | decl x => exact fun _ => (adds_declare _ _).bind0 fun _ => adds_pure _
  | init x e ih =>
    intro p s a s' h
    simp only [eval] at h
    split at h
    · rename_i hs
      have := Adds.top ((adds_one (ih _)).bind0 fun v => (adds_setVar x v).bind0 fun _ => adds_pure ([] : List Obj)) hs h
      rw [this, hs]
      rfl
    · exact ((adds_declare x .nil).bind fun _ => (adds_one' (ih _)).bind0 fun v => (adds_setVar x v).bind0 fun _ => adds_pure []) s a s' h
  | assign r e ihr ihe =>
    intro p
    simp only [eval]
    split
    · refine (ihr _).bind fun q => (adds_one' (ihe _)).bind0 fun v => Adds.bind0 ?_ fun _ => adds_pure _
      unfold store
      split
      · exact adds_setVar _ _
      · exact adds_tabPut _ _ _
      · exact adds_tabPut _ _ _
      · exact adds_odd
    · exact adds_odd
  | run r ih => exact fun _ => (adds_one' (ih _)).bind0 fun _ => adds_pure _
  | func f ps b => exact fun _ => adds_pure _
  | ifs c a ihc iha =>
    refine fun _ => (adds_one' (ihc _)).bind fun v => adds_guarded ?_ ?_
    · intro s b s' hs h
      split at h
      · rw [(iha _).top hs h]; rfl
      · cases h; rw [hs]; rfl
    · intro hd
      rw [hd] at iha
      split
      · exact iha _
      · exact adds_pure _
  | ite c a b ihc iha ihb =>
    simp only [decls, List.append_assoc]
    refine fun _ => (adds_one' (ihc _)).bind fun v => adds_guarded ?_ ?_
    · intro s d s' hs h
      split at h
      · rw [(iha _).top hs h]; rfl
      · rw [(ihb _).top hs h]; rfl
    · intro hd
      rw [List.append_eq_nil_iff] at hd
      rw [hd.1] at iha
      rw [hd.2] at ihb
      split
      · exact iha _
      · exact ihb _
  | while_ c a ihc iha =>
    refine fun _ => adds_guarded ?_ ?_
    · intro s d s' hs h
      rw [loop_top (adds_one (ihc _)) (adds_noValue (iha _)) _ _ _ _ hs h]; rfl
    · intro hd
      replace hd : decls c ++ decls a = [] := hd
      rw [List.append_eq_nil_iff] at hd
      rw [hd.2] at iha
      exact loop_adds (adds_one (ihc _)) (adds_noValue (iha _)) _
  | for_ i c u a ihi ihc ihu iha =>
    have : decls (.for_ i c u a) = decls i ++ (decls c ++ decls u ++ decls a) := by simp [decls]
    rw [this]
    refine fun _ => (adds_noValue (ihi _)).bind fun _ => adds_guarded ?_ ?_
    · intro s d s' hs h
      rw [loop_top (adds_one (ihc _)) ((adds_noValue (iha _)).bind fun _ => adds_noValue (ihu _)) _ _ _ _ hs h]; rfl
    · intro hd
      rw [List.append_eq_nil_iff, List.append_eq_nil_iff] at hd
      rw [hd.2] at iha
      rw [hd.1.2] at ihu
      exact loop_adds (adds_one (ihc _)) ((adds_noValue (iha _)).bind0 fun _ => adds_noValue (ihu _)) _
  | ret0 => exact fun _ => adds_leave _
  | ret e ih => exact fun _ => (adds_one' (ih _)).bind0 fun _ => adds_leave _
  | block b ih => exact fun _ => (adds_inBlock (adds_noValue (ih _))).bind0 fun _ => adds_pure _
  | skip => exact fun _ => adds_pure _
  | seq s l ih1 ih2 => exact fun _ => (adds_noValue (ih1 _)).bind fun _ => ih2 _

end Buzz.Lang
