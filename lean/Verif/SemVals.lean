import Verif.Sem

/-
Laws of the interpreter (`Verif/Sem.lean`): an expression of the grammar has one value, a statement none; more fuel does not change a
meaning once it is there.
-/
namespace Buzz.Lang

open Buzz.Msg Buzz.Lex Buzz.VM

/-! ### One value per expression, none per statement -/

theorem ev_bind_ok {α β : Type} {x : Ev α} {f : α → Ev β} {s s' : St} {b : β} (h : (x >>= f) s = .ok b s') : ∃ a s1, x s = .ok a s1 ∧ f a s1 = .ok b s' := by
  have h : (match x s with
    | .ok a s => f a s
    | .ret v s => .ret v s
    | .err e => .err e
    | .odd => .odd
    | .time => .time) = Out.ok b s' := h
  cases hx : x s with
  | ok a s1 => rw [hx] at h; exact ⟨a, s1, rfl, h⟩
  | ret v s => rw [hx] at h; cases h
  | err e => rw [hx] at h; cases h
  | odd => rw [hx] at h; cases h
  | time => rw [hx] at h; cases h

/-- Expressions. -/
def isExpr : Ast → Bool
  | .nil | .num _ | .str _ | .bin _ _ _ | .un _ _ | .lam _ _ | .tnew | .tset _ _ _ | .id _ | .field _ _ | .index _ _ | .call _ _ => true
  | _ => false

/-- Statements and lists of statements. -/
def isStat : Ast → Bool
  | .decl _ | .init _ _ | .assign _ _ | .run _ | .func _ _ _ | .ret0 | .ret _ | .block _ | .skip => true
  | .ifs _ a => isStat a
  | .ite _ a b => isStat a && isStat b
  | .while_ _ a => isStat a
  | .for_ _ _ _ a => isStat a
  | .seq s l => isStat s && isStat l
  | _ => false

variable {H : Host} {n : Nat} {run : Ast → Ev (List Obj)}

theorem expr_value {a : Ast} (ha : isExpr a = true) {s s' : St} {vs : List Obj} (h : eval H n run a false s = .ok vs s') : ∃ v, vs = [v] := by
  have last : ∀ {α : Type} {x : Ev α} {f : α → Obj} {s : St}, (do let v ← x; pure [f v] : Ev (List Obj)) s = .ok vs s' → ∃ v, vs = [v] := by
    intro α x f s h
    obtain ⟨v, s1, _, h⟩ := ev_bind_ok h
    cases h
    exact ⟨_, rfl⟩
  cases a with
  | nil => cases h; exact ⟨_, rfl⟩
  | num t => exact last h
  | str t => cases h; exact ⟨_, rfl⟩
  | bin o a b =>
    rw [eval] at h
    obtain ⟨_, _, _, h⟩ := ev_bind_ok h
    obtain ⟨_, _, _, h⟩ := ev_bind_ok h
    exact last h
  | un o a =>
    rw [eval] at h
    obtain ⟨_, _, _, h⟩ := ev_bind_ok h
    exact last h
  | lam ps b => rw [eval] at h; exact last h
  | tnew =>
    rw [eval] at h
    obtain ⟨_, _, _, h⟩ := ev_bind_ok h
    cases h
    exact ⟨_, rfl⟩
  | tset t k e =>
    rw [eval] at h
    obtain ⟨_, _, _, h⟩ := ev_bind_ok h
    obtain ⟨_, _, _, h⟩ := ev_bind_ok h
    obtain ⟨_, _, _, h⟩ := ev_bind_ok h
    obtain ⟨_, _, _, h⟩ := ev_bind_ok h
    cases h
    exact ⟨_, rfl⟩
  | id x =>
    rw [eval, if_neg (by simp)] at h
    exact last h
  | field r t =>
    rw [eval] at h
    obtain ⟨_, _, _, h⟩ := ev_bind_ok h
    simp only [Bool.false_eq_true, if_false] at h
    exact last h
  | index r e =>
    rw [eval] at h
    obtain ⟨_, _, _, h⟩ := ev_bind_ok h
    obtain ⟨_, _, _, h⟩ := ev_bind_ok h
    simp only [Bool.false_eq_true, if_false] at h
    exact last h
  | call f as =>
    rw [eval] at h
    split at h
    · obtain ⟨_, _, _, h⟩ := ev_bind_ok h
      obtain ⟨_, _, _, h⟩ := ev_bind_ok h
      exact last h
    · cases h
  | _ => cases ha

theorem loop_none {c : Ev Obj} {b : Ev Unit} : ∀ {n : Nat} {s s' : St} {vs : List Obj}, loop c b n s = .ok vs s' → vs = [] := by
  intro n
  induction n with
  | zero => intro s s' vs h; cases h
  | succ n ih =>
    intro s s' vs h
    rw [loop] at h
    obtain ⟨v, s1, _, h⟩ := ev_bind_ok h
    split at h
    · obtain ⟨_, _, _, h⟩ := ev_bind_ok h
      exact ih h
    · cases h; rfl

theorem guarded_ok {ds : List Bytes} {x : Ev (List Obj)} {s s' : St} {vs : List Obj} (h : guarded ds x s = .ok vs s') : x s = .ok vs s' := by
  unfold guarded at h
  cases hs : s.scope with
  | top => rw [hs] at h; exact h
  | inner =>
    rw [hs] at h
    simp only at h
    split at h
    · exact h
    · cases h
  | fn env =>
    rw [hs] at h
    simp only at h
    split at h
    · exact h
    · cases h

theorem leave_not {v : Obj} {s s' : St} {vs : List Obj} : leave v s ≠ .ok vs s' := by
  unfold leave
  cases s.scope <;> simp

theorem stat_none (a : Ast) : isStat a = true → ∀ {s s' : St} {vs : List Obj}, eval H n run a false s = .ok vs s' → vs = [] := by
  have last : ∀ {α : Type} {x : Ev α} {s s' : St} {vs : List Obj}, (do let _ ← x; pure [] : Ev (List Obj)) s = .ok vs s' → vs = [] := by
    intro α x s s' vs h
    obtain ⟨v, s1, _, h⟩ := ev_bind_ok h
    cases h
    rfl
  induction a with
  | decl x => intro _ s s' vs h; exact last h
  | init x e _ =>
    intro _ s s' vs h
    rw [eval] at h
    beta_reduce at h
    cases hs : s.scope with
    | top =>
      rw [hs] at h
      obtain ⟨_, _, _, h⟩ := ev_bind_ok h
      exact last h
    | inner =>
      rw [hs] at h
      obtain ⟨_, _, _, h⟩ := ev_bind_ok h
      obtain ⟨_, _, _, h⟩ := ev_bind_ok h
      exact last h
    | fn env =>
      rw [hs] at h
      obtain ⟨_, _, _, h⟩ := ev_bind_ok h
      obtain ⟨_, _, _, h⟩ := ev_bind_ok h
      exact last h
  | assign r e _ _ =>
    intro _ s s' vs h
    rw [eval] at h
    split at h
    · obtain ⟨_, _, _, h⟩ := ev_bind_ok h
      obtain ⟨_, _, _, h⟩ := ev_bind_ok h
      exact last h
    · cases h
  | run r _ => intro _ s s' vs h; rw [eval] at h; exact last h
  | func f ps b _ => intro _ s s' vs h; rw [eval] at h; cases h; rfl
  | ret0 => intro _ s s' vs h; rw [eval] at h; exact absurd h leave_not
  | ret e _ =>
    intro _ s s' vs h
    rw [eval] at h
    obtain ⟨_, _, _, h⟩ := ev_bind_ok h
    exact absurd h leave_not
  | block b _ => intro _ s s' vs h; rw [eval] at h; exact last h
  | skip => intro _ s s' vs h; rw [eval] at h; cases h; rfl
  | ifs c a _ ih =>
    intro ha s s' vs h
    rw [eval] at h
    obtain ⟨v, _, _, h⟩ := ev_bind_ok h
    have h := guarded_ok h
    split at h
    · exact ih ha h
    · cases h; rfl
  | ite c a b _ ih1 ih2 =>
    intro ha s s' vs h
    simp only [isStat, Bool.and_eq_true] at ha
    rw [eval] at h
    obtain ⟨v, _, _, h⟩ := ev_bind_ok h
    have h := guarded_ok h
    split at h
    · exact ih1 ha.1 h
    · exact ih2 ha.2 h
  | while_ c a _ _ => intro _ s s' vs h; rw [eval] at h; exact loop_none (guarded_ok h)
  | for_ i c u a _ _ _ _ =>
    intro _ s s' vs h
    rw [eval] at h
    obtain ⟨v, _, _, h⟩ := ev_bind_ok h
    exact loop_none (guarded_ok h)
  | seq a l _ ih =>
    intro ha s s' vs h
    simp only [isStat, Bool.and_eq_true] at ha
    rw [eval] at h
    obtain ⟨v, _, _, h⟩ := ev_bind_ok h
    exact ih ha.2 h
  | _ => intro ha; cases ha

theorem exec_expr {a : Ast} (ha : isExpr a = true) {s s' : St} {vs : List Obj} (h : exec H n a s = .ok vs s') : ∃ v, vs = [v] := by
  cases n with
  | zero => exact expr_value ha h
  | succ n => exact expr_value ha h

theorem exec_stat {a : Ast} (ha : isStat a = true) {s s' : St} {vs : List Obj} (h : exec H n a s = .ok vs s') : vs = [] := by
  cases n with
  | zero => exact stat_none a ha h
  | succ n => exact stat_none a ha h

/-- What a phrase of the grammar is. -/
def Kind : Cat → Ast → Prop
  | .args, a => isArgs a = true ∧ decls a = []
  | .simple, a => isStat a = true ∧ decls a = []
  | .stat, a => isStat a = true
  | .sub, a => isStat a = true
  | .stats, a => isStat a = true
  | .blk, a => isStat a = true
  | _, a => isExpr a = true ∧ decls a = []

theorem syn_kind {c : Cat} {ts : List T2} {a : Ast} (h : Syn c ts a) : Kind c a := by
  induction h with
  | not _ ih => exact ⟨rfl, ih.2⟩
  | bnot _ ih => exact ⟨rfl, ih.2⟩
  | minus _ _ ih => exact ⟨rfl, ih.2⟩
  | logic _ _ _ ih1 ih2 => exact ⟨rfl, by rw [decls, ih1.2, ih2.2]; rfl⟩
  | cmp _ _ _ ih1 ih2 => exact ⟨rfl, by rw [decls, ih1.2, ih2.2]; rfl⟩
  | sum _ _ _ ih1 ih2 => exact ⟨rfl, by rw [decls, ih1.2, ih2.2]; rfl⟩
  | prod _ _ _ ih1 ih2 => exact ⟨rfl, by rw [decls, ih1.2, ih2.2]; rfl⟩
  | modu _ _ _ ih1 ih2 => exact ⟨rfl, by rw [decls, ih1.2, ih2.2]; rfl⟩
  | pow _ _ _ ih1 ih2 => exact ⟨rfl, by rw [decls, ih1.2, ih2.2]; rfl⟩
  | shift _ _ _ ih1 ih2 => exact ⟨rfl, by rw [decls, ih1.2, ih2.2]; rfl⟩
  | andor _ _ _ ih1 ih2 => exact ⟨rfl, by rw [decls, ih1.2, ih2.2]; rfl⟩
  | entry1 _ _ ih => exact ⟨rfl, by rw [decls, ih.2]; rfl⟩
  | entry _ _ _ ih1 ih2 => exact ⟨rfl, by rw [decls, ih1.2, ih2.2]; rfl⟩
  | field _ ih => exact ⟨rfl, ih.2⟩
  | index _ _ ih1 ih2 => exact ⟨rfl, by rw [decls, ih1.2, ih2.2]; rfl⟩
  | call0 _ ih => exact ⟨rfl, by rw [decls, ih.2]; rfl⟩
  | call _ _ ih1 ih2 => exact ⟨rfl, by rw [decls, ih1.2, ih2.2]; rfl⟩
  | arg1 _ ih => exact ⟨rfl, by rw [decls, ih.2]; rfl⟩
  | arg _ _ ih1 ih2 => exact ⟨ih1.1, by rw [decls, ih1.2, ih2.2]; rfl⟩
  | ret _ ih => exact ⟨rfl, ih.2⟩
  | assign _ _ _ ih1 ih2 => exact ⟨rfl, by rw [decls, ih1.2, ih2.2]; rfl⟩
  | run _ ih => exact ⟨rfl, ih.2⟩
  | simple _ ih => exact ih.1
  | ifs _ _ _ ih => exact ih
  | ite _ _ _ _ _ _ ih1 ih2 => show (isStat _ && isStat _) = true; rw [show isStat _ = true from ih1, show isStat _ = true from ih2]; rfl
  | while_ _ _ _ ih => exact ih
  | for_ _ _ _ _ _ _ _ _ _ ih => exact ih
  | stats _ _ _ ih1 ih2 => show (isStat _ && isStat _) = true; rw [show isStat _ = true from ih1, show isStat _ = true from ih2]; rfl
  | cond _ ih => exact ih
  | logic1 _ ih => exact ih
  | cmp1 _ ih => exact ih
  | tab _ ih => exact ih
  | expr _ ih => exact ih
  | sum1 _ ih => exact ih
  | prod1 _ ih => exact ih
  | modu1 _ ih => exact ih
  | pow1 _ ih => exact ih
  | shift1 _ ih => exact ih
  | andor1 _ ih => exact ih
  | opnd _ ih => exact ih
  | par _ ih => exact ih
  | plus _ _ ih => exact ih
  | ref _ ih => exact ih
  | sub _ ih => exact ih
  | blk _ ih => exact ih
  | init _ _ => rfl
  | func _ _ _ => rfl
  | funcDoc _ _ _ => rfl
  | subBlk _ _ => rfl
  | _ => first | exact ⟨rfl, rfl⟩ | rfl

/-! ### Fuel -/

/-- `y` has at least as much fuel as `x`. -/
def Less {α : Type} (x y : Ev α) : Prop := ∀ s, x s = .time ∨ x s = y s

theorem Less.refl {α : Type} (x : Ev α) : Less x x := fun _ => .inr rfl

theorem Less.trans {α : Type} {x y z : Ev α} (h : Less x y) (k : Less y z) : Less x z := by
  intro s
  rcases h s with h | h
  · exact .inl h
  · rcases k s with k | k
    · exact .inl (h.trans k)
    · exact .inr (h.trans k)

theorem Less.bind {α β : Type} {x y : Ev α} {f g : α → Ev β} (h : Less x y) (k : ∀ a, Less (f a) (g a)) : Less (x >>= f) (y >>= g) := by
  intro s
  show (match x s with
    | .ok a s => f a s
    | .ret v s => .ret v s
    | .err e => .err e
    | .odd => .odd
    | .time => .time) = _ ∨ (match x s with
    | .ok a s => f a s
    | .ret v s => .ret v s
    | .err e => .err e
    | .odd => .odd
    | .time => .time) = (match y s with
    | .ok a s => g a s
    | .ret v s => .ret v s
    | .err e => .err e
    | .odd => .odd
    | .time => .time)
  rcases h s with h | h
  · rw [h]; exact .inl rfl
  · rw [← h]
    cases x s with
    | ok a s => exact k a s
    | ret v s => exact .inr rfl
    | err e => exact .inr rfl
    | odd => exact .inr rfl
    | time => exact .inl rfl

theorem Less.then {α β : Type} {x y : Ev α} {f : α → Ev β} (h : Less x y) : Less (x >>= f) (y >>= f) := h.bind fun _ => .refl _

theorem Less.one {a : Ast} {x y : Ev (List Obj)} (h : Less x y) : Less (one a x) (one a y) := by
  unfold Lang.one
  split
  · exact h.then
  · exact .refl _

theorem Less.noValue {x y : Ev (List Obj)} (h : Less x y) : Less (noValue x) (noValue y) := h.then

theorem Less.guarded {ds : List Bytes} {x y : Ev (List Obj)} (h : Less x y) : Less (guarded ds x) (guarded ds y) := by
  intro s
  unfold Lang.guarded
  cases s.scope with
  | top => exact h s
  | inner => simp only; split; exacts [h s, .inr rfl]
  | fn env => simp only; split; exacts [h s, .inr rfl]

theorem Less.inBlock {x y : Ev Unit} (h : Less x y) : Less (inBlock x) (inBlock y) := by
  intro s
  unfold Lang.inBlock
  cases s.scope with
  | top =>
    simp only
    rcases h { s with scope := .inner } with h | h
    · rw [h]; exact .inl rfl
    · rw [h]; exact .inr rfl
  | inner => exact h s
  | fn env =>
    simp only
    rcases h s with h | h
    · rw [h]; exact .inl rfl
    · rw [h]; exact .inr rfl

theorem Less.inFunction {env : List (Bytes × Obj)} {x y : Ev (List Obj)} (h : Less x y) : Less (inFunction env x) (inFunction env y) := by
  intro s
  unfold Lang.inFunction
  rcases h { s with scope := .fn env } with h | h
  · rw [h]; exact .inl rfl
  · rw [h]; exact .inr rfl

theorem Less.loop {c c' : Ev Obj} {b b' : Ev Unit} (hc : Less c c') (hb : Less b b') : ∀ {n m : Nat}, n ≤ m → Less (loop c b n) (loop c' b' m) := by
  intro n
  induction n with
  | zero => intro m _ s; exact .inl rfl
  | succ n ih =>
    intro m hm
    obtain ⟨m, rfl⟩ : ∃ k, m = k + 1 := ⟨m - 1, by omega⟩
    rw [Lang.loop, Lang.loop]
    refine hc.bind fun v => ?_
    split
    · exact hb.bind fun _ => ih (by omega)
    · exact .refl _

theorem Less.apply {lib : Lib} {run run' : Ast → Ev (List Obj)} (h : ∀ a, Less (run a) (run' a)) (c : Obj) (vs : List Obj) : Less (apply lib run c vs) (apply lib run' c vs) := by
  unfold Lang.apply
  split
  · exact .refl _
  · cases c with
    | clo l =>
      refine Less.bind (.refl _) fun t => ?_
      cases t with
      | fn ps b env =>
        simp only
        split
        · exact (h b).inFunction
        · exact .refl _
      | _ => exact .refl _
    | _ => exact .refl _

theorem eval_less {n m : Nat} {run run' : Ast → Ev (List Obj)} (hn : n ≤ m) (hr : ∀ a, Less (run a) (run' a)) (a : Ast) :
    ∀ place, Less (eval H n run a place) (eval H m run' a place) := by
  induction a with
  | bin o a b ih1 ih2 =>
    intro pl
    rw [eval, eval]
    exact (ih1 _).one.bind fun _ => (ih2 _).one.then
  | un o a ih =>
    intro pl
    rw [eval, eval]
    exact (ih _).one.then
  | tset t k e ih1 ih2 =>
    intro pl
    rw [eval, eval]
    exact (ih1 _).one.bind fun _ => Less.bind (.refl _) fun _ => (ih2 _).one.then
  | field r t ih =>
    intro pl
    rw [eval, eval]
    exact (ih _).one.then
  | index r e ih1 ih2 =>
    intro pl
    rw [eval, eval]
    exact (ih1 _).one.bind fun _ => (ih2 _).one.then
  | call f as ih1 ih2 =>
    intro pl
    rw [eval, eval]
    split
    · exact (ih1 _).one.bind fun _ => (ih2 _).bind fun _ => (Less.apply hr _ _).then
    · exact .refl _
  | arg as a ih1 ih2 =>
    intro pl
    rw [eval, eval]
    exact (ih1 _).bind fun _ => (ih2 _).one.then
  | init x e ih =>
    intro pl s
    rw [eval, eval]
    beta_reduce
    cases s.scope with
    | top => exact (ih _).one.then s
    | inner => exact Less.bind (.refl _) (fun _ => (ih _).one.then) s
    | fn env => exact Less.bind (.refl _) (fun _ => (ih _).one.then) s
  | assign r e ih1 ih2 =>
    intro pl
    rw [eval, eval]
    split
    · exact (ih1 _).bind fun _ => (ih2 _).one.then
    · exact .refl _
  | run r ih =>
    intro pl
    rw [eval, eval]
    exact (ih _).one.then
  | ifs c a ih1 ih2 =>
    intro pl
    rw [eval, eval]
    refine (ih1 _).one.bind fun v => Less.guarded ?_
    split
    · exact ih2 _
    · exact .refl _
  | ite c a b ih1 ih2 ih3 =>
    intro pl
    rw [eval, eval]
    refine (ih1 _).one.bind fun v => Less.guarded ?_
    split
    · exact ih2 _
    · exact ih3 _
  | while_ c a ih1 ih2 =>
    intro pl
    rw [eval, eval]
    exact Less.guarded (Less.loop (ih1 _).one (ih2 _).noValue hn)
  | for_ i c u a ih1 ih2 ih3 ih4 =>
    intro pl
    rw [eval, eval]
    exact (ih1 _).noValue.bind fun _ => Less.guarded (Less.loop (ih2 _).one ((ih4 _).noValue.bind fun _ => (ih3 _).noValue) hn)
  | ret e ih =>
    intro pl
    rw [eval, eval]
    exact (ih _).one.then
  | block b ih =>
    intro pl
    rw [eval, eval]
    exact (ih _).noValue.inBlock.then
  | seq a l ih1 ih2 =>
    intro pl
    rw [eval, eval]
    exact (ih1 _).noValue.bind fun _ => ih2 _
  | _ => intro pl s; exact .inr (by simp only [eval])

/-- More fuel does not change a meaning. -/
theorem exec_less (H : Host) : ∀ {n m : Nat}, n ≤ m → ∀ a, Less (exec H n a) (exec H m a) := by
  intro n
  induction n with
  | zero =>
    intro m _ a
    cases m with
    | zero => exact .refl _
    | succ m => exact eval_less (by omega) (fun _ _ => .inl rfl) a false
  | succ n ih =>
    intro m hm a
    obtain ⟨m, rfl⟩ : ∃ k, m = k + 1 := ⟨m - 1, by omega⟩
    exact eval_less hm (fun a => ih (by omega) a) a false


/-! ### Only statements return -/

/-- `x` does not end with a `return`. -/
def NoRet {α : Type} (x : Ev α) : Prop := ∀ s v s', x s ≠ .ret v s'

theorem NoRet.pure {α : Type} (a : α) : NoRet (pure a : Ev α) := fun _ _ _ h => by cases h

theorem NoRet.odd {α : Type} : NoRet (odd : Ev α) := fun _ _ _ h => by cases h

theorem NoRet.raise {α : Type} (e : Err) : NoRet (raise e : Ev α) := fun _ _ _ h => by cases h

theorem NoRet.bind {α β : Type} {x : Ev α} {f : α → Ev β} (h : NoRet x) (k : ∀ a, NoRet (f a)) : NoRet (x >>= f) := by
  intro s v s' e
  have e : (match x s with
    | .ok a s => f a s
    | .ret v s => .ret v s
    | .err e => .err e
    | .odd => .odd
    | .time => .time) = Out.ret v s' := e
  cases hx : x s with
  | ok a s1 => rw [hx] at e; exact k a _ _ _ e
  | ret v s1 => exact h _ _ _ hx
  | err e' => rw [hx] at e; cases e
  | odd => rw [hx] at e; cases e
  | time => rw [hx] at e; cases e

theorem NoRet.one {a : Ast} {x : Ev (List Obj)} (h : NoRet x) : NoRet (one a x) := by
  unfold Lang.one
  split
  · refine h.bind fun vs => ?_
    split
    · exact .pure _
    · exact .odd
  · exact .odd

theorem NoRet.const (t : Bytes) : NoRet (const H t) := by
  unfold Lang.const
  split
  · exact .pure _
  · exact .odd

theorem NoRet.result (r : Option (Res Obj)) : NoRet (result r) := by
  unfold Lang.result
  split
  · exact .raise _
  · exact .pure _
  · exact .odd

theorem NoRet.binary (o : Bin) (x y : Obj) : NoRet (binary H o x y) := by
  unfold Lang.binary
  split
  · split
    · exact .odd
    · exact .result _
  · exact .result _

theorem NoRet.look (l : Nat) : NoRet (look l) := by
  intro s v s' h
  unfold Lang.look at h
  split at h <;> cases h

theorem NoRet.getVar (x : Bytes) : NoRet (getVar x) := by
  intro s v s' h
  unfold Lang.getVar at h
  split at h <;> cases h

theorem NoRet.closure (ps : List Bytes) (b : Ast) : NoRet (closure ps b) := by
  have : ∀ env, NoRet (newFn ps b env) := fun env => .bind (fun _ _ _ h => by cases h) fun _ => .pure _
  intro s v s' h
  unfold Lang.closure at h
  split at h
  · cases h
  · split at h
    · exact this _ _ _ _ h
    · cases h
  · split at h
    · exact this _ _ _ _ h
    · cases h

theorem NoRet.tabGet (t k : Obj) : NoRet (tabGet t k) := by
  unfold Lang.tabGet
  repeat' first | exact .raise _ | exact .odd | exact .pure _ | exact .look _ | refine .bind ?_ fun _ => ?_ | split

theorem NoRet.change (l : Nat) (t : Thing) : NoRet (change l t) := fun _ _ _ h => by cases h

theorem NoRet.alloc (t : Thing) : NoRet (alloc t) := fun _ _ _ h => by cases h

theorem NoRet.tabPut (t k v : Obj) : NoRet (tabPut t k v) := by
  unfold Lang.tabPut
  repeat' first | exact .raise _ | exact .odd | exact .pure _ | exact .look _ | exact .change _ _ | exact .alloc _ | refine .bind ?_ fun _ => ?_ | split

theorem NoRet.apply {lib : Lib} {run : Ast → Ev (List Obj)} (c : Obj) (vs : List Obj) : NoRet (apply lib run c vs) := by
  have hho : ∀ x, NoRet (inHost x) := by
    intro x s v s' h
    unfold inHost at h
    split at h <;> cases h
  have hin : ∀ env x, NoRet (inFunction env x) := by
    intro env x s v s' h
    unfold inFunction at h
    split at h <;> cases h
  unfold Lang.apply
  repeat' first | exact .raise _ | exact .odd | exact .pure _ | exact .look _ | exact hin _ _ | exact hho _ | refine .bind ?_ fun _ => ?_ | split

/-- Expressions all of whose parts are expressions, and lists of them. -/
def deep : Ast → Bool
  | .nil | .num _ | .str _ | .lam _ _ | .tnew | .id _ | .noArg => true
  | .bin _ a b => deep a && deep b
  | .un _ a => deep a
  | .tset t _ e => deep t && deep e
  | .field r _ => deep r
  | .index r e => deep r && deep e
  | .call f as => deep f && deep as
  | .arg as a => deep as && deep a
  | _ => false

theorem deep_noRet (a : Ast) : deep a = true → NoRet (eval H n run a false) := by
  induction a with
  | nil => intro _; rw [eval]; exact .pure _
  | num t => intro _; rw [eval]; exact (NoRet.const t).bind fun _ => .pure _
  | str s => intro _; rw [eval]; exact .pure _
  | bin o a b iha ihb =>
    intro h
    simp only [deep, Bool.and_eq_true] at h
    rw [eval]
    exact (iha h.1).one.bind fun _ => (ihb h.2).one.bind fun _ => (NoRet.binary o _ _).bind fun _ => .pure _
  | un o a ih =>
    intro h
    rw [eval]
    exact (ih h).one.bind fun _ => (NoRet.result _).bind fun _ => .pure _
  | lam ps b _ => intro _; rw [eval]; exact (NoRet.closure ps b).bind fun _ => .pure _
  | tnew => intro _; rw [eval]; exact (NoRet.alloc _).bind fun _ => .pure _
  | tset t k e iha ihb =>
    intro h
    simp only [deep, Bool.and_eq_true] at h
    rw [eval]
    refine (iha h.1).one.bind fun _ => NoRet.bind ?_ fun _ => (ihb h.2).one.bind fun _ => (NoRet.tabPut _ _ _).bind fun _ => .pure _
    cases k with
    | name s => exact .pure _
    | num t => exact .const t
  | id x =>
    intro _
    rw [eval, if_neg (by simp)]
    exact (NoRet.getVar x).bind fun _ => .pure _
  | field r s ih =>
    intro h
    rw [eval]
    refine (ih h).one.bind fun _ => ?_
    rw [if_neg (by simp)]
    exact (NoRet.tabGet _ _).bind fun _ => .pure _
  | index r e iha ihb =>
    intro h
    simp only [deep, Bool.and_eq_true] at h
    rw [eval]
    refine (iha h.1).one.bind fun _ => (ihb h.2).one.bind fun _ => ?_
    rw [if_neg (by simp)]
    exact (NoRet.tabGet _ _).bind fun _ => .pure _
  | call f as iha ihb =>
    intro h
    simp only [deep, Bool.and_eq_true] at h
    rw [eval]
    split
    · exact (iha h.1).one.bind fun _ => (ihb h.2).bind fun _ => (NoRet.apply _ _).bind fun _ => .pure _
    · exact .odd
  | noArg => intro _; rw [eval]; exact .pure _
  | arg as a iha ihb =>
    intro h
    simp only [deep, Bool.and_eq_true] at h
    rw [eval]
    exact (iha h.1).bind fun _ => (ihb h.2).one.bind fun _ => .pure _
  | _ => intro h; cases h

theorem exec_noRet {a : Ast} (h : deep a = true) : NoRet (exec H n a) := by
  cases n with
  | zero => exact deep_noRet a h
  | succ n => exact deep_noRet a h

/-- The categories of expressions. -/
def exprCat : Cat → Bool
  | .simple | .stat | .sub | .stats | .blk => false
  | _ => true

theorem syn_deep {c : Cat} {ts : List T2} {a : Ast} (h : Syn c ts a) : exprCat c = true → deep a = true := by
  induction h with
  | simple | ifs | ite | while_ | for_ | stats | sub | blk | init | func | funcDoc | subBlk | ret | assign | run => intro h; cases h
  | logic _ _ _ ih1 ih2 | cmp _ _ _ ih1 ih2 | sum _ _ _ ih1 ih2 | prod _ _ _ ih1 ih2 | modu _ _ _ ih1 ih2 | pow _ _ _ ih1 ih2 | shift _ _ _ ih1 ih2 | andor _ _ _ ih1 ih2 =>
    intro _; rw [deep, ih1 rfl, ih2 rfl]; rfl
  | entry _ _ _ ih1 ih2 => intro _; rw [deep, ih1 rfl, ih2 rfl]; rfl
  | entry1 _ _ ih => intro _; rw [deep, ih rfl]; rfl
  | index _ _ ih1 ih2 | call _ _ ih1 ih2 | arg _ _ ih1 ih2 => intro _; rw [deep, ih1 rfl, ih2 rfl]; rfl
  | call0 _ ih => intro _; rw [deep, ih rfl]; rfl
  | arg1 _ ih => intro _; rw [deep, ih rfl]; rfl
  | not _ ih | bnot _ ih | minus _ _ ih | field _ ih | cond _ ih | logic1 _ ih | cmp1 _ ih | tab _ ih | expr _ ih | sum1 _ ih | prod1 _ ih | modu1 _ ih | pow1 _ ih | shift1 _ ih | andor1 _ ih
  | opnd _ ih | par _ ih | plus _ _ ih | ref _ ih => intro _; exact ih rfl
  | _ => first | (intro h; cases h; done) | (intro _; rfl)

end Buzz.Lang
