import Verif.Bzz
import Verif.SemLib
import Verif.InstallBase

/-
The meaning of the functions of src/include/string.bzz.
-/
namespace Buzz.Props

open Buzz.Msg Buzz.VM
open Buzz.Lang

/-! ### Evaluation -/

section Eval

variable {α β : Type} {H : Host} {n : Nat} {run : Ast → Ev (List Obj)}

theorem ev_pure (a : α) (s : St) : (pure a : Ev α) s = .ok a s := rfl

theorem ev_bind {x : Ev α} {f : α → Ev β} {s s' : St} {a : α} (h : x s = .ok a s') : (x >>= f) s = f a s' := by
  show (match x s with | .ok a s => f a s | .ret v s => .ret v s | .err e => .err e | .odd => .odd | .time => .time) = _
  rw [h]

theorem ev_bind_ret {x : Ev α} {f : α → Ev β} {s s' : St} {v : Obj} (h : x s = .ret v s') : (x >>= f) s = .ret v s' := by
  show (match x s with | .ok a s => f a s | .ret v s => .ret v s | .err e => .err e | .odd => .odd | .time => .time) = _
  rw [h]

theorem ev_one {a : Ast} {x : Ev (List Obj)} {s s' : St} {v : Obj} (hd : decls a = []) (h : x s = .ok [v] s') : one a x s = .ok v s' := by
  unfold one
  rw [if_pos hd, ev_bind h]
  rfl

theorem ev_num {t : Bytes} {v : Obj} {b : Bool} {s : St} (h : constVal H t = some v) : eval H n run (.num t) b s = .ok [v] s := by
  rw [eval]
  refine (ev_bind (a := v) (s' := s) ?_).trans rfl
  unfold const
  rw [h]
  rfl

theorem ev_id {x : Bytes} {v : Obj} {s : St} (h : getVar x s = .ok v s) : eval H n run (.id x) false s = .ok [v] s := by
  rw [eval]
  exact (ev_bind h).trans rfl

theorem ev_bin {o : Bin} {a b : Ast} {x y v : Obj} {p : Bool} {s s1 s2 : St} (da : decls a = []) (db : decls b = []) (ha : eval H n run a false s = .ok [x] s1)
    (hb : eval H n run b false s1 = .ok [y] s2) (h : binary H o x y s2 = .ok v s2) : eval H n run (.bin o a b) p s = .ok [v] s2 := by
  rw [eval]
  refine (ev_bind (ev_one da ha)).trans ((ev_bind (ev_one db hb)).trans ?_)
  exact (ev_bind h).trans rfl

theorem ev_un {o : Un} {a : Ast} {x v : Obj} {p : Bool} {s s1 : St} (da : decls a = []) (ha : eval H n run a false s = .ok [x] s1)
    (h : unary o x s1 = .ok v s1) : eval H n run (.un o a) p s = .ok [v] s1 := by
  rw [eval]
  exact (ev_bind (ev_one da ha)).trans ((ev_bind h).trans rfl)

theorem ev_arg {as a : Ast} {vs : List Obj} {v : Obj} {p : Bool} {s s1 s2 : St} (da : decls a = []) (has : eval H n run as false s = .ok vs s1)
    (ha : eval H n run a false s1 = .ok [v] s2) : eval H n run (.arg as a) p s = .ok (vs ++ [v]) s2 := by
  rw [eval]
  exact (ev_bind has).trans ((ev_bind (ev_one da ha)).trans rfl)

theorem ev_noArg {p : Bool} {s : St} : eval H n run .noArg p s = .ok [] s := by rw [eval]; rfl

theorem ev_field {r : Ast} {k : Bytes} {t v : Obj} {s s1 : St} (dr : decls r = []) (hr : eval H n run r false s = .ok [t] s1) (h : tabGet t (.str 0 k) s1 = .ok v s1) :
    eval H n run (.field r k) false s = .ok [v] s1 := by
  rw [eval]
  refine (ev_bind (ev_one dr hr)).trans ?_
  exact (ev_bind h).trans rfl

theorem ev_call {f as : Ast} {c v : Obj} {vs : List Obj} {p : Bool} {s s1 s2 s3 : St} (hf : (isCallee f && isArgs as) = true) (df : decls f = [])
    (h1 : eval H n run f false s = .ok [c] s1) (h2 : eval H n run as false s1 = .ok vs s2) (h3 : apply H.lib run c vs s2 = .ok v s3) :
    eval H n run (.call f as) p s = .ok [v] s3 := by
  rw [eval, if_pos hf]
  exact (ev_bind (ev_one df h1)).trans ((ev_bind h2).trans ((ev_bind h3).trans rfl))

theorem ev_seq {a b : Ast} {p : Bool} {s s1 : St} {r : Out (List Obj)} (h1 : eval H n run a false s = .ok [] s1) (h2 : eval H n run b false s1 = r) :
    eval H n run (.seq a b) p s = r := by
  rw [eval]
  refine (ev_bind (a := ()) (s' := s1) ?_).trans h2
  unfold noValue
  exact (ev_bind h1).trans rfl

theorem ev_seq_ret {a b : Ast} {p : Bool} {s s1 : St} {v : Obj} (h1 : eval H n run a false s = .ret v s1) :
    eval H n run (.seq a b) p s = .ret v s1 := by
  rw [eval]
  refine ev_bind_ret ?_
  unfold noValue
  exact ev_bind_ret h1

theorem ev_skip {p : Bool} {s : St} : eval H n run .skip p s = .ok [] s := by rw [eval]; rfl

theorem ev_nil {p : Bool} {s : St} : eval H n run .nil p s = .ok [.nil] s := by rw [eval]; rfl

theorem ev_tnew {p : Bool} {s : St} : eval H n run .tnew p s = .ok [.tab s.store.length] { s with store := s.store ++ [.tab []] } := by rw [eval]; rfl

theorem ev_ret {e : Ast} {v : Obj} {p : Bool} {g : List (Bytes × Obj)} {st st' : List Thing} {env env' : List (Bytes × Obj)} {s : St} (de : decls e = [])
    (h : eval H n run e false s = .ok [v] ⟨g, st', .fn env'⟩) : eval H n run (.ret e) p s = .ret v ⟨g, st', .fn env'⟩ := by
  rw [eval]
  exact (ev_bind (ev_one de h)).trans rfl

/-- Declaring a variable with a value in a function. -/
theorem ev_init {x : Bytes} {e : Ast} {v : Obj} {p : Bool} {g g' : List (Bytes × Obj)} {st st' : List Thing} {env env' : List (Bytes × Obj)} (hx : valueOf x env = none)
    (hl : env.length + 1 < limit) (de : decls e = []) (h : eval H n run e false ⟨g, st, .fn (env ++ [(x, .nil)])⟩ = .ok [v] ⟨g', st', .fn env'⟩) (hv : (valueOf x env').isSome) :
    eval H n run (.init x e) p ⟨g, st, .fn env⟩ = .ok [] ⟨g', st', .fn (assignTo x v env')⟩ := by
  rw [eval]
  show (declare x .nil >>= fun _ => _) _ = _
  have h1 : declare x .nil ⟨g, st, .fn env⟩ = .ok () ⟨g, st, .fn (env ++ [(x, .nil)])⟩ := by
    show (if (valueOf x env).isSome ∨ limit ≤ env.length + 1 then Out.odd else _) = _
    rw [if_neg (by rw [hx]; simp; omega)]
  refine (ev_bind h1).trans ((ev_bind (ev_one de h)).trans ?_)
  have h2 : setVar x v ⟨g', st', .fn env'⟩ = .ok () ⟨g', st', .fn (assignTo x v env')⟩ := by
    show (if (valueOf x env').isSome then _ else _) = _
    rw [if_pos hv]
  exact (ev_bind h2).trans rfl

/-- Assigning a variable of the function. -/
theorem ev_set {x : Bytes} {e : Ast} {v : Obj} {p : Bool} {g' : List (Bytes × Obj)} {st' : List Thing} {env' : List (Bytes × Obj)} {s : St} (de : decls e = [])
    (h : eval H n run e false s = .ok [v] ⟨g', st', .fn env'⟩) (hv : (valueOf x env').isSome) :
    eval H n run (.assign (.id x) e) p s = .ok [] ⟨g', st', .fn (assignTo x v env')⟩ := by
  rw [eval, if_pos (show isRef (.id x) = true from rfl)]
  have h0 : eval H n run (.id x) true s = .ok [] s := by rw [eval]; rfl
  refine (ev_bind h0).trans ((ev_bind (ev_one de h)).trans ?_)
  have h2 : setVar x v ⟨g', st', .fn env'⟩ = .ok () ⟨g', st', .fn (assignTo x v env')⟩ := by
    show (if (valueOf x env').isSome then _ else _) = _
    rw [if_pos hv]
  exact (ev_bind h2).trans rfl

theorem guarded_nil {x : Ev (List Obj)} {s : St} : guarded [] x s = x s := by
  unfold guarded
  cases s.scope <;> rfl

theorem ev_ifs {c a : Ast} {v : Obj} {p : Bool} {s s1 : St} (dc : decls c = []) (da : decls a = []) (h : eval H n run c false s = .ok [v] s1) :
    eval H n run (.ifs c a) p s = if truth v then eval H n run a false s1 else .ok [] s1 := by
  rw [eval]
  refine (ev_bind (ev_one dc h)).trans ?_
  rw [da, guarded_nil]
  split <;> rfl

theorem ev_ite {c a b : Ast} {v : Obj} {p : Bool} {s s1 : St} (dc : decls c = []) (da : decls a = []) (db : decls b = []) (h : eval H n run c false s = .ok [v] s1) :
    eval H n run (.ite c a b) p s = if truth v then eval H n run a false s1 else eval H n run b false s1 := by
  rw [eval]
  refine (ev_bind (ev_one dc h)).trans ?_
  rw [da, db, List.append_nil, guarded_nil]
  split <;> rfl

theorem ev_while {c a : Ast} {p : Bool} {s : St} (dc : decls c = []) (da : decls a = []) :
    eval H n run (.while_ c a) p s = loop (one c (eval H n run c false)) (noValue (eval H n run a false)) n s := by
  rw [eval, dc, da, List.append_nil, guarded_nil]

theorem ev_block {b : Ast} {p : Bool} {g g' : List (Bytes × Obj)} {st st' : List Thing} {env env' : List (Bytes × Obj)}
    (h : eval H n run b false ⟨g, st, .fn env⟩ = .ok [] ⟨g', st', .fn env'⟩) :
    eval H n run (.block b) p ⟨g, st, .fn env⟩ = .ok [] ⟨g', st', .fn (env'.take env.length)⟩ := by
  rw [eval]
  refine (ev_bind (a := ()) (s' := ⟨g', st', .fn (env'.take env.length)⟩) ?_).trans rfl
  have : noValue (eval H n run b false) ⟨g, st, .fn env⟩ = .ok () ⟨g', st', .fn env'⟩ := by
    unfold noValue
    exact (ev_bind h).trans rfl
  unfold inBlock
  dsimp only
  rw [this]

theorem ev_block_ret {b : Ast} {p : Bool} {g : List (Bytes × Obj)} {st : List Thing} {env : List (Bytes × Obj)} {v : Obj} {s' : St}
    (h : eval H n run b false ⟨g, st, .fn env⟩ = .ret v s') : eval H n run (.block b) p ⟨g, st, .fn env⟩ = .ret v s' := by
  rw [eval]
  refine ev_bind_ret ?_
  have : noValue (eval H n run b false) ⟨g, st, .fn env⟩ = .ret v s' := by
    unfold noValue
    exact ev_bind_ret h
  unfold inBlock
  dsimp only
  rw [this]

theorem loop_go {c : Ev Obj} {b : Ev Unit} {m : Nat} {s s1 s2 : St} {v : Obj} (hc : c s = .ok v s1) (ht : truth v = true) (hb : b s1 = .ok () s2) :
    loop c b (m + 1) s = loop c b m s2 := by
  rw [loop]
  refine (ev_bind hc).trans ?_
  rw [if_pos ht]
  exact ev_bind hb

theorem loop_ret {c : Ev Obj} {b : Ev Unit} {m : Nat} {s s1 s2 : St} {v w : Obj} (hc : c s = .ok v s1) (ht : truth v = true) (hb : b s1 = .ret w s2) :
    loop c b (m + 1) s = .ret w s2 := by
  rw [loop]
  refine (ev_bind hc).trans ?_
  rw [if_pos ht]
  exact ev_bind_ret hb

theorem loop_end {c : Ev Obj} {b : Ev Unit} {m : Nat} {s s1 : St} {v : Obj} (hc : c s = .ok v s1) (ht : truth v = false) :
    loop c b (m + 1) s = .ok [] s1 := by
  rw [loop]
  refine (ev_bind hc).trans ?_
  rw [if_neg (by rw [ht]; simp)]
  rfl

theorem ev_noValue {x : Ev (List Obj)} {s s1 : St} (h : x s = .ok [] s1) : noValue x s = .ok () s1 := by
  unfold noValue
  exact (ev_bind h).trans rfl

theorem ev_noValue_ret {x : Ev (List Obj)} {s s1 : St} {v : Obj} (h : x s = .ret v s1) : noValue x s = .ret v s1 := by
  unfold noValue
  exact ev_bind_ret h

/-- A function of the host whose answer does not depend on the state. -/
theorem apply_host {f k : Nat} {env vs : List Obj} {v : Obj} {s : St} {lib : Lib} (hf : s.store[f]? = some (.host k env)) (hl : vs.length < limit)
    (h : lib k (env ++ vs) = (Ans.val v).ev) : apply lib run (.clo f) vs s = .ok v s := by
  unfold apply
  rw [if_neg (by omega)]
  have h1 : look f s = .ok (.host k env) s := by
    unfold look
    rw [hf]
  refine (ev_bind h1).trans ?_
  show (match (lib k (env ++ vs)) { s with scope := .top } with | .ok v s' => Out.ok v { s' with scope := s.scope } | .err e => .err e | _ => .odd) = _
  rw [h]
  rfl

/-- A function of the program that returns a value. -/
theorem apply_fn {f : Nat} {ps : List Bytes} {b : Ast} {env : List (Bytes × Obj)} {vs : List Obj} {v : Obj} {s s' : St} {lib : Lib} (hf : s.store[f]? = some (.fn ps b env))
    (hl : vs.length < limit) (hn : vs.length = ps.length) (hs : env.length + ps.length < limit)
    (h : run b { s with scope := .fn (env ++ ps.zip vs) } = .ret v s') : apply lib run (.clo f) vs s = .ok v { s' with scope := s.scope } := by
  unfold apply
  rw [if_neg (by omega)]
  have h1 : look f s = .ok (.fn ps b env) s := by
    unfold look
    rw [hf]
  refine (ev_bind h1).trans ?_
  show (if vs.length = ps.length ∧ env.length + ps.length < limit then inFunction (env ++ ps.zip vs) (run b) else odd) s = _
  rw [if_pos ⟨hn, hs⟩]
  unfold inFunction
  rw [h]

end Eval

/-! ### Numbers and strings -/

theorem const0 {H : Host} : constVal H N.d0 = some (.int 0) := by
  have : decimal N.d0 = some 0 := by decide +kernel
  rw [constVal, if_neg (by decide), this]
  rfl

theorem const1 {H : Host} : constVal H N.d1 = some (.int 1) := by
  have : decimal N.d1 = some 1 := by decide +kernel
  rw [constVal, if_neg (by decide), this]
  rfl

theorem binary_int {H : Host} {o : Bin} {a b : Int} {v : Obj} {s : St} (h : binV H.env o (.int a) (.int b) = some (.ok v)) : binary H o (.int a) (.int b) s = .ok v s := by
  show Lang.result (binV H.env o (.int a) (.int b)) s = _
  rw [h]
  rfl

/-- An integer of 32 bits. -/
def In32 (v : Int) : Prop := -2147483648 ≤ v ∧ v ≤ 2147483647

theorem ev_add {H : Host} {a b : Int} {s : St} (h : In32 (a + b)) : binary H .add (.int a) (.int b) s = .ok (.int (a + b)) s :=
  binary_int (by show some (chk (a + b)) = _; rw [chk, if_pos (show _ ∧ _ from h)])

theorem ev_sub {H : Host} {a b : Int} {s : St} (h : In32 (a - b)) : binary H .sub (.int a) (.int b) s = .ok (.int (a - b)) s :=
  binary_int (by show some (chk (a - b)) = _; rw [chk, if_pos (show _ ∧ _ from h)])

/-- The integer of a truth value. -/
theorem cmpI_ne2 (a b : Int) : Obj.cmpI a b ≠ 2 := by
  unfold Obj.cmpI
  split
  · decide
  · split <;> decide

theorem ev_lt {H : Host} {a b : Int} {s : St} : binary H .lt (.int a) (.int b) s = .ok (ofBool (decide (a < b))) s := by
  refine binary_int ?_
  show some (Res.ok (ofBool (decide (Obj.cmpI a b = 2) || decide (Obj.cmpI a b < 0)))) = _
  rw [decide_eq_false (cmpI_ne2 a b), Bool.false_or]
  congr 4
  unfold Obj.cmpI
  simp only [eq_iff_iff]
  split
  · simp; assumption
  · split
    · simp; omega
    · simp; omega

theorem ev_gte {H : Host} {a b : Int} {s : St} : binary H .gte (.int a) (.int b) s = .ok (ofBool (decide (a ≥ b))) s := by
  refine binary_int ?_
  show some (Res.ok (ofBool (decide (Obj.cmpI a b = 2) || decide (Obj.cmpI a b ≥ 0)))) = _
  rw [decide_eq_false (cmpI_ne2 a b), Bool.false_or]
  congr 4
  unfold Obj.cmpI
  simp only [eq_iff_iff]
  split
  · simp; omega
  · split
    · simp; omega
    · simp; omega

theorem ev_gt {H : Host} {a b : Int} {s : St} : binary H .gt (.int a) (.int b) s = .ok (ofBool (decide (a > b))) s := by
  refine binary_int ?_
  show some (Res.ok (ofBool (decide (Obj.cmpI a b = 2) || decide (Obj.cmpI a b > 0)))) = _
  rw [decide_eq_false (cmpI_ne2 a b), Bool.false_or]
  congr 4
  unfold Obj.cmpI
  simp only [eq_iff_iff]
  split
  · simp; omega
  · split
    · simp; omega
    · simp; omega

theorem truth_ofBool (b : Bool) : truth (ofBool b) = b := by cases b <;> rfl

/-- Two texts are taken for equal. -/
def same (E : Env) (a b : Bytes) : Bool := decide (E.sc a b = 2) || decide (E.sc a b = 0)

theorem ev_eq {H : Host} {a b : Bytes} {s : St} : binary H .eq (.str 0 a) (.str 0 b) s = .ok (ofBool (same H.env a b)) s := rfl

/-- Nil is taken for equal to everything. -/
theorem ev_eq_nil {H : Host} {a : Bytes} {s : St} : binary H .eq .nil (.str 0 a) s = .ok (.int 1) s := rfl

theorem lib_length (t : Obj) (vs : List Obj) : stdLib 59 (t :: vs) = (fun1 strLen vs).ev := rfl

theorem lib_sub (t : Obj) (vs : List Obj) : stdLib 60 (t :: vs) = (strSub vs).ev := rfl

/-! ### The table of the strings -/

/-- What the table `string` at location `l` holds once the script has run. -/
def stringFns (l : Nat) : List (Bytes × Thing) :=
  [(N.length, .host 59 [.tab l]), (N.sub, .host 60 [.tab l]), (N.charat, .fn [N.s, N.n] charatBody [(self, .tab l)]),
   (N.indexoffirst, .fn [N.s, N.m] indexoffirstBody [(self, .tab l)]), (N.indexoflast, .fn [N.s, N.m] indexoflastBody [(self, .tab l)]),
   (N.split, .fn [N.s, N.d] splitBody [(self, .tab l)])]

/-- The global variable `x` is a table with the functions `fs`. -/
structure HasFns (x : Bytes) (g : List (Bytes × Obj)) (st : List Thing) (l : Nat) (fs : List (Bytes × Thing)) : Prop where
  glob : valueOf x g = some (.tab l)
  tab : ∃ es, st[l]? = some (.tab es) ∧ (es.all fun e => sameKind (.str 0 []) e.1) = true ∧
    ∀ k t, (k, t) ∈ fs → ∃ f, entryOf (.str 0 k) es = some (.clo f) ∧ st[f]? = some t

/-- It has the functions of the library and of the script. -/
abbrev Loaded (g : List (Bytes × Obj)) (st : List Thing) (l : Nat) : Prop := HasFns N.string g st l (stringFns l)

theorem HasFns.grow {x : Bytes} {g : List (Bytes × Obj)} {st st' : List Thing} {l : Nat} {fs : List (Bytes × Thing)} (h : HasFns x g st l fs) (hs : ∀ i < st.length, st'[i]? = st[i]?) : HasFns x g st' l fs := by
  have key : ∀ (i : Nat) (t : Thing), st[i]? = some t → st'[i]? = some t := by
    intro i t hi
    rw [hs i (by rcases Nat.lt_or_ge i st.length with h | h; exact h; rw [List.getElem?_eq_none h] at hi; cases hi), hi]
  obtain ⟨h1, es, h2, h3, h4⟩ := h
  refine ⟨h1, es, key _ _ h2, h3, fun k t hk => ?_⟩
  obtain ⟨f, h5, h6⟩ := h4 k t hk
  exact ⟨f, h5, key _ _ h6⟩

theorem sameKind_str (k : Bytes) : (fun e : Obj × Obj => sameKind (.str 0 k) e.1) = fun e => sameKind (.str 0 []) e.1 := by
  funext e
  obtain ⟨k, v⟩ := e
  cases k <;> rfl

theorem HasFns.get {x : Bytes} {g : List (Bytes × Obj)} {st : List Thing} {l : Nat} {fs : List (Bytes × Thing)} (h : HasFns x g st l fs) {k : Bytes} {t : Thing} (hk : (k, t) ∈ fs) :
    ∃ f, st[f]? = some t ∧ ∀ sc, tabGet (.tab l) (.str 0 k) ⟨g, st, sc⟩ = .ok (.clo f) ⟨g, st, sc⟩ := by
  obtain ⟨h1, es, h2, h3, h4⟩ := h
  obtain ⟨f, h5, h6⟩ := h4 k t hk
  refine ⟨f, h6, fun sc => ?_⟩
  have hl : look l ⟨g, st, sc⟩ = .ok (.tab es) ⟨g, st, sc⟩ := by
    unfold look
    rw [h2]
  refine (ev_bind hl).trans ?_
  have hc : (sameKind (.str 0 k) (.str 0 k) && es.all fun e => sameKind (.str 0 k) e.1) = true := by rw [sameKind_str, h3]; rfl
  show (if (sameKind (.str 0 k) (.str 0 k) && es.all fun e => sameKind (.str 0 k) e.1) = true then pure ((entryOf (.str 0 k) es).getD .nil) else odd) _ = _
  rw [if_pos hc, h5]
  rfl

/-! ### Loading the script -/

theorem entryOf_filter {k k' : Obj} (h : k' ≠ k) : ∀ es : List (Obj × Obj), entryOf k' (es.filter (fun e => e.1 ≠ k)) = entryOf k' es
  | [] => rfl
  | (a, b) :: es => by
    have ih := entryOf_filter h es
    by_cases ha : a = k
    · rw [List.filter_cons_of_neg (by simp [ha]), ih]
      show _ = if a = k' then some b else entryOf k' es
      rw [if_neg (fun h' => h (by rw [← h', ha]))]
    · rw [List.filter_cons_of_pos (by simp [ha])]
      show (if a = k' then some b else entryOf k' (es.filter _)) = if a = k' then some b else entryOf k' es
      rw [ih]

theorem entryOf_snoc {k : Obj} {e : Obj × Obj} : ∀ es : List (Obj × Obj), entryOf k (es ++ [e]) = match entryOf k es with | some v => some v | none => if e.1 = k then some e.2 else none
  | [] => rfl
  | (a, b) :: es => by
    show (if a = k then some b else entryOf k (es ++ [e])) = match (if a = k then some b else entryOf k es) with | some v => some v | none => if e.1 = k then some e.2 else none
    by_cases ha : a = k
    · rw [if_pos ha, if_pos ha]
    · rw [if_neg ha, if_neg ha]
      exact entryOf_snoc es

theorem entryOf_gone {k : Obj} : ∀ es : List (Obj × Obj), entryOf k (es.filter (fun e => e.1 ≠ k)) = none
  | [] => rfl
  | (a, b) :: es => by
    by_cases ha : a = k
    · rw [List.filter_cons_of_neg (by simp [ha])]
      exact entryOf_gone es
    · rw [List.filter_cons_of_pos (by simp [ha])]
      show (if a = k then some b else _) = none
      rw [if_neg ha]
      exact entryOf_gone es

/-- The store with a new function, a copy of it for the table at `l`, and the copy in the table. -/
def withFn (st : List Thing) (l : Nat) (es : List (Obj × Obj)) (k : Bytes) (ps : List Bytes) (b : Ast) : List Thing :=
  (st ++ [Thing.fn ps b [(self, .nil)]] ++ [Thing.fn ps b [(self, .tab l)]]).set l (Thing.tab (es.filter (fun e => e.1 ≠ Obj.str 0 k) ++ [(Obj.str 0 k, Obj.clo (st.length + 1))]))

/-- A function of the script is put in the table: everything else stays. -/
theorem ev_define {x : Bytes} {H : Host} {n : Nat} {run : Ast → Ev (List Obj)} {g : List (Bytes × Obj)} {st : List Thing} {l : Nat} {fs : List (Bytes × Thing)} {k : Bytes} {ps : List Bytes} {b : Ast} {p : Bool}
    (h : HasFns x g st l fs) (hf : ∀ e ∈ fs, (∀ es, e.2 ≠ .tab es) ∧ e.1 ≠ k) (hps : (self :: ps).Nodup) :
    ∃ st', eval H n run (.assign (.field (.id x) k) (.lam ps b)) p ⟨g, st, .top⟩ = .ok [] ⟨g, st', .top⟩ ∧ HasFns x g st' l (fs ++ [(k, .fn ps b [(self, .tab l)])]) ∧
      st.length ≤ st'.length ∧ ∀ i < st.length, i ≠ l → st'[i]? = st[i]? := by
  obtain ⟨h1, es, h2, h3, h4⟩ := h
  have hlt : l < st.length := (List.getElem?_eq_some_iff.mp h2).1
  refine ⟨withFn st l es k ps b, ?_, ⟨h1, es.filter (fun e => e.1 ≠ Obj.str 0 k) ++ [(Obj.str 0 k, Obj.clo (st.length + 1))], ?_, ?_, ?_⟩, ?_, ?_⟩
  · rw [eval, if_pos (show isRef (.field (.id x) k) = true from rfl)]
    have hs : eval H n run (.id x) false ⟨g, st, .top⟩ = .ok [.tab l] ⟨g, st, .top⟩ := by
      refine ev_id ?_
      unfold getVar
      dsimp only
      unfold globalVal
      rw [h1]
      rfl
    have h0 : eval H n run (.field (.id x) k) true ⟨g, st, .top⟩ = .ok [.tab l, .str 0 k] ⟨g, st, .top⟩ := by
      rw [eval]
      exact (ev_bind (ev_one rfl hs)).trans rfl
    have hc : eval H n run (.lam ps b) false ⟨g, st, .top⟩ = .ok [.clo st.length] ⟨g, st ++ [.fn ps b [(self, .nil)]], .top⟩ := by
      rw [eval]
      have : closure ps b ⟨g, st, .top⟩ = .ok (.clo st.length) ⟨g, st ++ [.fn ps b [(self, .nil)]], .top⟩ := by
        unfold closure
        dsimp only
        rw [if_pos hps]
        rfl
      exact (ev_bind this).trans rfl
    refine (ev_bind h0).trans ((ev_bind (ev_one rfl hc)).trans ?_)
    refine (ev_bind (a := ()) (s' := ⟨g, withFn st l es k ps b, .top⟩) ?_).trans rfl
    show tabPut (.tab l) (.str 0 k) (.clo st.length) _ = _
    have hl : look l ⟨g, st ++ [.fn ps b [(self, .nil)]], .top⟩ = .ok (.tab es) ⟨g, st ++ [.fn ps b [(self, .nil)]], .top⟩ := by
      unfold look
      dsimp only
      rw [List.getElem?_append_left hlt, h2]
    refine (ev_bind hl).trans ?_
    have hc : (sameKind (.str 0 k) (.str 0 k) && es.all fun e => sameKind (.str 0 k) e.1) = true := by rw [sameKind_str, h3]; rfl
    have hl2 : look st.length ⟨g, st ++ [.fn ps b [(self, .nil)]], .top⟩ = .ok (.fn ps b [(self, .nil)]) ⟨g, st ++ [.fn ps b [(self, .nil)]], .top⟩ := by
      unfold look
      simp
    dsimp only
    rw [if_pos (show isKey (.str 0 k) = true from rfl), if_pos hc]
    refine (ev_bind hl2).trans ?_
    unfold withFn
    show Out.ok () (_ : St) = _
    simp [alloc]
  · rw [withFn, List.getElem?_set_self (by simp; omega)]
  · rw [List.all_append, Bool.and_eq_true]
    refine ⟨?_, rfl⟩
    rw [List.all_eq_true] at h3 ⊢
    exact fun e he => h3 e (List.mem_of_mem_filter he)
  · intro k' t hk
    rcases List.mem_append.mp hk with hk | hk
    · obtain ⟨f, h5, h6⟩ := h4 k' t hk
      obtain ⟨q1, q2⟩ := hf _ hk
      have hfl : f < st.length := (List.getElem?_eq_some_iff.mp h6).1
      refine ⟨f, ?_, ?_⟩
      · rw [entryOf_snoc, entryOf_filter (by intro he; injection he with _ he; exact q2 he), h5]
      · rw [withFn, List.getElem?_set_ne (by rintro rfl; rw [h2] at h6; exact q1 _ (Option.some.inj h6).symm), List.append_assoc, List.getElem?_append_left hfl, h6]
    · rw [List.mem_singleton] at hk
      obtain ⟨rfl, rfl⟩ := Prod.mk.inj hk
      refine ⟨st.length + 1, ?_, ?_⟩
      · rw [entryOf_snoc, entryOf_gone]
        simp
      · rw [withFn, List.getElem?_set_ne (by omega), List.getElem?_append_right (by simp)]
        simp
  · simp [withFn]
  · intro i hi hne
    rw [withFn, List.getElem?_set_ne (Ne.symm hne), List.append_assoc, List.getElem?_append_left hi]

/-- The script puts its four functions in the table `string`. -/
theorem load_string {H : Host} {n : Nat} {run : Ast → Ev (List Obj)} {g : List (Bytes × Obj)} {st : List Thing} {l : Nat}
    (h : HasFns N.string g st l [(N.length, .host 59 [.tab l]), (N.sub, .host 60 [.tab l])]) :
    ∃ st', eval H n run stringAst false ⟨g, st, .top⟩ = .ok [] ⟨g, st', .top⟩ ∧ Loaded g st' l ∧ ∀ i < st.length, i ≠ l → st'[i]? = st[i]? := by
  obtain ⟨st1, e1, h1, l1, k1⟩ := ev_define (H := H) (n := n) (run := run) (k := N.charat) (ps := [N.s, N.n]) (b := charatBody) (p := false) h (by simp) (by decide)
  obtain ⟨st2, e2, h2, l2, k2⟩ := ev_define (H := H) (n := n) (run := run) (k := N.indexoffirst) (ps := [N.s, N.m]) (b := indexoffirstBody) (p := false) h1 (by simp) (by decide)
  obtain ⟨st3, e3, h3, l3, k3⟩ := ev_define (H := H) (n := n) (run := run) (k := N.indexoflast) (ps := [N.s, N.m]) (b := indexoflastBody) (p := false) h2 (by simp) (by decide)
  obtain ⟨st4, e4, h4, l4, k4⟩ := ev_define (H := H) (n := n) (run := run) (k := N.split) (ps := [N.s, N.d]) (b := splitBody) (p := false) h3 (by simp) (by decide)
  refine ⟨st4, ev_seq e1 (ev_seq e2 (ev_seq e3 (ev_seq e4 ev_skip))), h4, fun i hi hne => ?_⟩
  rw [k4 i (by omega) hne, k3 i (by omega) hne, k2 i (by omega) hne, k1 i hi hne]

/-- A function of the library is in the table of its part of the library. -/
theorem standard_member {robot : Nat} {s0 s1 : St} (h : Sim.Standard robot s0 s1) {lib : String} {x : Bytes} (hl : lib ≠ "") (hr : lib ≠ "math.rng") (hx : ascii lib = x) :
    ∀ m name (k : Bytes), libNames[m]? = some (lib, name) → ascii name = k →
      ∃ l es f, globalVal x s1 = .tab l ∧ s1.store[l]? = some (.tab es) ∧ entryOf (.str 0 k) es = some (.clo f) ∧ s1.store[f]? = some (.host m [.tab l]) := by
  intro m name k hm hk
  obtain ⟨slf, f, h1, h2⟩ := h.funs m _ hm
  unfold Sim.member at h1
  rw [if_neg hl, if_neg hr] at h1
  obtain ⟨v, h3, h4⟩ := Option.map_eq_some_iff.1 h1
  obtain ⟨h5, h6⟩ := Prod.mk.inj h4
  rw [hx] at h3 h5
  unfold Sim.field at h3
  cases hg : globalVal x s1 with
  | tab l =>
    rw [hg] at h3
    dsimp only at h3
    cases hst : s1.store[l]? with
    | none => rw [hst] at h3; cases h3
    | some t =>
      rw [hst] at h3
      cases t with
      | tab es =>
        dsimp only at h3
        refine ⟨l, es, f, rfl, hst, ?_, ?_⟩
        · rw [← hk, h3, h6]
        · rw [h2, ← h5, hg]
      | fn ps b env => cases h3
      | host n env => cases h3
  | _ => rw [hg] at h3; cases h3

/-- The registration of the library prepares a table with two of its functions. -/
theorem standard_two {robot : Nat} {s0 s1 : St} (h : Sim.Standard robot s0 s1) {lib : String} {x : Bytes} (hl : lib ≠ "") (hr : lib ≠ "math.rng") (hx : ascii lib = x) (hm : lib ∈ Sim.libGlobals)
    {m m' : Nat} {name name' : String} {a a' : Bytes} (h1 : libNames[m]? = some (lib, name)) (h2 : ascii name = a) (h3 : libNames[m']? = some (lib, name')) (h4 : ascii name' = a') :
    ∃ l, HasFns x s1.globals s1.store l [(a, .host m [.tab l]), (a', .host m' [.tab l])] := by
  obtain ⟨l, es, f, k1, k2, k3, k4⟩ := standard_member h hl hr hx m name a h1 h2
  obtain ⟨l', es', f', j1, j2, j3, j4⟩ := standard_member h hl hr hx m' name' a' h3 h4
  rw [k1] at j1
  obtain rfl : l = l' := by injection j1
  rw [k2] at j2
  obtain rfl : es = es' := by injection j2 with j2; injection j2
  refine ⟨l, ?_, es, k2, ?_, ?_⟩
  · unfold globalVal at k1
    cases hv : valueOf x s1.globals with
    | none => rw [hv] at k1; cases k1
    | some v => rw [hv] at k1; exact congrArg some k1
  · rw [List.all_eq_true]
    intro e he
    obtain ⟨k, hk⟩ := h.keys lib hm l es (by rw [hx]; exact k1) k2 e he
    rw [hk]
    rfl
  · intro k t hk
    simp only [List.mem_cons, List.not_mem_nil, or_false, Prod.mk.injEq] at hk
    rcases hk with ⟨rfl, rfl⟩ | ⟨rfl, rfl⟩
    · exact ⟨f, k3, k4⟩
    · exact ⟨f', j3, j4⟩

/-- The registration of the library prepares the table. -/
theorem standard_has {robot : Nat} {s0 s1 : St} (h : Sim.Standard robot s0 s1) : ∃ l, HasFns N.string s1.globals s1.store l [(N.length, .host 59 [.tab l]), (N.sub, .host 60 [.tab l])] :=
  standard_two h (lib := "string") (by decide) (by decide) (by decide) (by decide) (m := 59) (m' := 60) (name := "length") (name' := "sub") (by decide) (by decide) (by decide) (by decide)

section Call

variable {H : Host} {n : Nat} {run : Ast → Ev (List Obj)} {g : List (Bytes × Obj)} {st : List Thing} {l : Nat} {env : List (Bytes × Obj)}

theorem get_local {x : Bytes} {v : Obj} (h : valueOf x env = some v) : getVar x ⟨g, st, .fn env⟩ = .ok v ⟨g, st, .fn env⟩ := by
  unfold getVar
  dsimp only
  rw [h]
  rfl

theorem ev_loc {x : Bytes} {v : Obj} (h : valueOf x env = some v) : eval H n run (.id x) false ⟨g, st, .fn env⟩ = .ok [v] ⟨g, st, .fn env⟩ := ev_id (get_local h)

theorem ev_string (h : Loaded g st l) (he : valueOf N.string env = none) {k : Bytes} {t : Thing} (hk : (k, t) ∈ stringFns l) :
    ∃ f, st[f]? = some t ∧ eval H n run (.field (.id N.string) k) false ⟨g, st, .fn env⟩ = .ok [.clo f] ⟨g, st, .fn env⟩ := by
  obtain ⟨f, h1, h2⟩ := h.get hk
  refine ⟨f, h1, ev_field rfl (ev_id ?_) (h2 _)⟩
  unfold getVar
  dsimp only
  rw [he]
  show Out.ok (globalVal _ _) _ = _
  unfold globalVal
  rw [h.glob]
  rfl

theorem lim {k : Nat} (h : k < 100) : k < limit := by
  unfold limit
  omega

/-- A call of `string.length`. -/
theorem ev_length (hL : H.lib = stdLib) (h : Loaded g st l) (he : valueOf N.string env = none) {a : Ast} {t : Bytes} {p : Bool} (da : decls a = []) (ht : short t)
    (ha : eval H n run a false ⟨g, st, .fn env⟩ = .ok [.str 0 t] ⟨g, st, .fn env⟩) :
    eval H n run (.call (.field (.id N.string) N.length) (.arg .noArg a)) p ⟨g, st, .fn env⟩ = .ok [.int t.length] ⟨g, st, .fn env⟩ := by
  obtain ⟨f, h1, h2⟩ := ev_string (H := H) (n := n) (run := run) h he (k := N.length) (t := .host 59 [.tab l]) (by simp [stringFns])
  refine ev_call rfl rfl h2 (ev_arg da ev_noArg ha) (apply_host h1 (lim (by simp)) ?_)
  rw [hL]
  show (fun1 strLen [.str 0 t]).ev = _
  show (if short t then Ans.val (.int t.length) else .odd).ev = _
  rw [if_pos ht]

/-- What `string.sub` answers for a start that is not negative. -/
def subVal (t : Bytes) (i j : Int) : Obj := if i ≥ t.length ∨ j < i then .nil else .str 0 ((t.take j.toNat).drop i.toNat)

theorem ev_substr (hL : H.lib = stdLib) (h : Loaded g st l) (he : valueOf N.string env = none) {a b c : Ast} {t : Bytes} {i j : Int} {p : Bool} (da : decls a = [])
    (db : decls b = []) (dc : decls c = []) (ht : short t) (hi : 0 ≤ i) (ha : eval H n run a false ⟨g, st, .fn env⟩ = .ok [.str 0 t] ⟨g, st, .fn env⟩)
    (hb : eval H n run b false ⟨g, st, .fn env⟩ = .ok [.int i] ⟨g, st, .fn env⟩) (hc : eval H n run c false ⟨g, st, .fn env⟩ = .ok [.int j] ⟨g, st, .fn env⟩) :
    eval H n run (.call (.field (.id N.string) N.sub) (.arg (.arg (.arg .noArg a) b) c)) p ⟨g, st, .fn env⟩ = .ok [subVal t i j] ⟨g, st, .fn env⟩ := by
  obtain ⟨f, h1, h2⟩ := ev_string (H := H) (n := n) (run := run) h he (k := N.sub) (t := .host 60 [.tab l]) (by simp [stringFns])
  refine ev_call rfl rfl h2 (ev_arg dc (ev_arg db (ev_arg da ev_noArg ha) hb) hc) (apply_host h1 (lim (by simp)) ?_)
  rw [hL]
  show (Lang.strSub [.str 0 t, .int i, .int j]).ev = _
  have : Lang.strSub [.str 0 t, .int i, .int j] = .val (subVal t i j) := by
    unfold Lang.strSub subVal slice
    dsimp only
    rw [if_pos ht]
    by_cases h1 : i ≥ t.length
    · rw [if_pos h1, if_pos (Or.inl h1)]
    · rw [if_neg h1]
      by_cases h2 : j < i
      · rw [if_pos h2, if_pos (Or.inr h2)]
      · rw [if_neg h2, if_neg (by omega), if_neg (by omega)]
  rw [this]

/-! ### `string.charat` -/

/-- The character number `i` of a text, nil behind the end. -/
def charVal (t : Bytes) (i : Nat) : Obj :=
  match t[i]? with
  | some c => .str 0 [c]
  | none => .nil

theorem subVal_char (t : Bytes) (i : Nat) : subVal t i (i + 1) = charVal t i := by
  unfold subVal charVal
  rcases Nat.lt_or_ge i t.length with h | h
  · rw [if_neg (by omega), List.getElem?_eq_getElem h]
    have h1 : ((i : Int) + 1).toNat = i + 1 := by omega
    have h2 : (i : Int).toNat = i := by omega
    rw [h1, h2, List.drop_take, List.drop_eq_getElem_cons h, Nat.add_sub_cancel_left]
    rfl
  · rw [if_pos (by omega), List.getElem?_eq_none h]

theorem charat_body (hL : H.lib = stdLib) (h : Loaded g st l) {t : Bytes} {i : Nat} (ht : short t) (hi : In32 (i + 1)) :
    eval H n run charatBody false ⟨g, st, .fn [(self, .tab l), (N.s, .str 0 t), (N.n, .int i)]⟩ = .ret (charVal t i) ⟨g, st, .fn [(self, .tab l), (N.s, .str 0 t), (N.n, .int i)]⟩ := by
  refine ev_seq_ret (ev_ret (st := st) (env := []) rfl ?_)
  rw [← subVal_char]
  exact ev_substr hL h rfl rfl rfl rfl ht (by omega) (ev_loc rfl) (ev_loc rfl) (ev_bin rfl rfl (ev_loc rfl) (ev_num const1) (ev_add hi))

/-! ### `string.indexoffirst` and `string.indexoflast` -/

/-- A value is taken for equal to a text: nil is. -/
def eqVal (E : Env) (v : Obj) (u : Bytes) : Bool :=
  match v with
  | .str _ a => same E a u
  | _ => true

/-- The characters from number `i` on are taken for the text `u`. -/
def hit (E : Env) (t u : Bytes) (i : Nat) : Bool := eqVal E (subVal t i (i + u.length)) u

theorem subVal_cases (t : Bytes) (i j : Int) : subVal t i j = .nil ∨ ∃ a, subVal t i j = .str 0 a := by
  unfold subVal
  split
  · exact Or.inl rfl
  · exact Or.inr ⟨_, rfl⟩

theorem ev_hit {t u : Bytes} {i j : Int} {s : St} : binary H .eq (subVal t i j) (.str 0 u) s = .ok (ofBool (eqVal H.env (subVal t i j) u)) s := by
  rcases subVal_cases t i j with h | ⟨a, h⟩ <;> rw [h] <;> rfl

/-- The variables of `indexoffirst` and `indexoflast`. -/
def idxEnv (l : Nat) (t u : Bytes) (i : Int) : List (Bytes × Obj) :=
  [(self, .tab l), (N.s, .str 0 t), (N.m, .str 0 u), (N.ls, .int t.length), (N.lm, .int u.length), (N.i, .int i)]

/-- The body of both loops, going to `j` next. -/
theorem idx_body (hL : H.lib = stdLib) (h : Loaded g st l) {t u : Bytes} {i : Nat} {j : Int} {e : Ast} (ht : short t) (hi : In32 (i + u.length)) (de : decls e = [])
    (he : eval H n run e false ⟨g, st, .fn (idxEnv l t u i)⟩ = .ok [.int j] ⟨g, st, .fn (idxEnv l t u i)⟩) :
    eval H n run (.block (.seq (.ifs (.bin .eq (.call (.field (.id N.string) N.sub) (.arg (.arg (.arg .noArg (.id N.s)) (.id N.i)) (.bin .add (.id N.i) (.id N.lm)))) (.id N.m)) (.ret (.id N.i)))
   (.seq (.assign (.id N.i) e) .skip))) false ⟨g, st, .fn (idxEnv l t u i)⟩
      = if hit H.env t u i then .ret (.int i) ⟨g, st, .fn (idxEnv l t u i)⟩ else .ok [] ⟨g, st, .fn (idxEnv l t u j)⟩ := by
  have hc : eval H n run (.bin .eq (.call (.field (.id N.string) N.sub) (.arg (.arg (.arg .noArg (.id N.s)) (.id N.i)) (.bin .add (.id N.i) (.id N.lm)))) (.id N.m)) false ⟨g, st, .fn (idxEnv l t u i)⟩
      = .ok [ofBool (hit H.env t u i)] ⟨g, st, .fn (idxEnv l t u i)⟩ :=
    ev_bin rfl rfl (ev_substr hL h rfl rfl rfl rfl ht (by omega) (ev_loc rfl) (ev_loc rfl) (ev_bin rfl rfl (ev_loc rfl) (ev_loc rfl) (ev_add hi))) (ev_loc rfl) ev_hit
  have hif := ev_ifs (H := H) (n := n) (run := run) (a := .ret (.id N.i)) (p := false) rfl rfl hc
  rw [truth_ofBool] at hif
  cases hh : hit H.env t u i
  · rw [hh, if_neg (by simp)] at hif
    rw [if_neg (by simp)]
    exact ev_block (env' := idxEnv l t u j) (ev_seq hif (ev_seq (ev_set de he rfl) ev_skip))
  · rw [hh, if_pos rfl] at hif
    rw [if_pos rfl]
    refine ev_block_ret (ev_seq_ret (hif.trans ?_))
    exact ev_ret (st := st) (env := []) rfl (ev_loc rfl)

/-- The answer of a search. -/
def found : Option Nat → Obj
  | some i => .int i
  | none => .nil

theorem first_loop (hL : H.lib = stdLib) (h : Loaded g st l) {t u : Bytes} (ht : (t.length : Int) + 1 < 2147483648) (hu : (u.length : Int) < 2147483648) :
    ∀ (d i m : Nat), d = ((t.length : Int) - u.length + 1 - i).toNat → d < m →
    loop (one (.bin .lt (.id N.i) (.bin .add (.bin .sub (.id N.ls) (.id N.lm)) (.num N.d1))) (eval H n run (.bin .lt (.id N.i) (.bin .add (.bin .sub (.id N.ls) (.id N.lm)) (.num N.d1))) false))
      (noValue (eval H n run (.block (.seq (.ifs (.bin .eq (.call (.field (.id N.string) N.sub) (.arg (.arg (.arg .noArg (.id N.s)) (.id N.i)) (.bin .add (.id N.i) (.id N.lm)))) (.id N.m)) (.ret (.id N.i)))
   (.seq (.assign (.id N.i) (.bin .add (.id N.i) (.num N.d1))) .skip))) false)) m ⟨g, st, .fn (idxEnv l t u i)⟩
      = match (List.range' i d).find? (hit H.env t u) with
        | some j => .ret (.int j) ⟨g, st, .fn (idxEnv l t u j)⟩
        | none => .ok [] ⟨g, st, .fn (idxEnv l t u (i + d : Nat))⟩ := by
  intro d
  induction d with
  | zero =>
    intro i m hd hm
    obtain ⟨m, rfl⟩ : ∃ k, m = k + 1 := ⟨m - 1, by omega⟩
    have hc := ev_bin (H := H) (n := n) (run := run) (s := ⟨g, st, .fn (idxEnv l t u i)⟩) (p := false) (a := .id N.i) (b := .bin .add (.bin .sub (.id N.ls) (.id N.lm)) (.num N.d1)) rfl rfl (ev_loc rfl)
      (ev_bin rfl rfl (ev_bin rfl rfl (ev_loc rfl) (ev_loc rfl) (ev_sub (by constructor <;> omega))) (ev_num const1) (ev_add (by constructor <;> omega))) ev_lt
    refine loop_end (ev_one rfl hc) ?_
    rw [truth_ofBool, decide_eq_false (by omega)]
  | succ d ih =>
    intro i m hd hm
    obtain ⟨m, rfl⟩ : ∃ k, m = k + 1 := ⟨m - 1, by omega⟩
    have hc := ev_bin (H := H) (n := n) (run := run) (s := ⟨g, st, .fn (idxEnv l t u i)⟩) (p := false) (a := .id N.i) (b := .bin .add (.bin .sub (.id N.ls) (.id N.lm)) (.num N.d1)) rfl rfl (ev_loc rfl)
      (ev_bin rfl rfl (ev_bin rfl rfl (ev_loc rfl) (ev_loc rfl) (ev_sub (by constructor <;> omega))) (ev_num const1) (ev_add (by constructor <;> omega))) ev_lt
    have hb := idx_body (n := n) (run := run) (t := t) (u := u) (i := i) (j := (i + 1 : Nat)) (e := .bin .add (.id N.i) (.num N.d1)) hL h (by simp [short]; omega) (by constructor <;> omega) rfl
      (ev_bin rfl rfl (ev_loc rfl) (ev_num const1) (ev_add (by constructor <;> omega)))
    have htr : truth (ofBool (decide ((i : Int) < (t.length : Int) - u.length + 1))) = true := by rw [truth_ofBool, decide_eq_true (by omega)]
    rw [List.range'_succ, List.find?_cons]
    cases hh : hit H.env t u i
    · rw [hh, if_neg (by simp)] at hb
      rw [loop_go (ev_one rfl hc) htr (ev_noValue hb), ih (i + 1) m (by omega) (by omega)]
      dsimp only
      split <;> rename_i hx <;> rw [hx] <;> dsimp only
      rw [show i + 1 + d = i + (d + 1) from by omega]
    · rw [hh, if_pos rfl] at hb
      exact loop_ret (ev_one rfl hc) htr (ev_noValue_ret hb)

theorem first_body (hL : H.lib = stdLib) (h : Loaded g st l) {t u : Bytes} (ht : (t.length : Int) + 1 < 2147483648) (hu : (u.length : Int) < 2147483648) (hn : t.length + 1 < n) :
    ∃ env, eval H n run indexoffirstBody false ⟨g, st, .fn [(self, .tab l), (N.s, .str 0 t), (N.m, .str 0 u)]⟩
      = .ret (found ((List.range ((t.length : Int) - u.length + 1).toNat).find? (hit H.env t u))) ⟨g, st, .fn env⟩ := by
  have h1 := ev_init (H := H) (n := n) (run := run) (g := g) (st := st) (env := [(self, .tab l), (N.s, .str 0 t), (N.m, .str 0 u)]) (x := N.ls) (p := false) rfl (lim (by simp)) rfl
    (ev_length hL h rfl rfl (by simp [short]; omega) (ev_loc (v := .str 0 t) (x := N.s) rfl)) rfl
  have h2 := ev_init (H := H) (n := n) (run := run) (g := g) (st := st) (env := [(self, .tab l), (N.s, .str 0 t), (N.m, .str 0 u), (N.ls, .int t.length)]) (x := N.lm) (p := false) rfl (lim (by simp)) rfl
    (ev_length hL h rfl rfl (by simp [short]; omega) (ev_loc (v := .str 0 u) (x := N.m) rfl)) rfl
  have h3 := ev_init (H := H) (n := n) (run := run) (g := g) (st := st) (env := [(self, .tab l), (N.s, .str 0 t), (N.m, .str 0 u), (N.ls, .int t.length), (N.lm, .int u.length)]) (x := N.i) (p := false) rfl (lim (by simp)) rfl
    (ev_num const0) rfl
  have hl := first_loop (n := n) (run := run) hL h ht hu _ 0 n rfl (by omega)
  have hw := (ev_while (p := false) rfl rfl).trans hl
  rw [show ((t.length : Int) - u.length + 1 - (0 : Nat)).toNat = ((t.length : Int) - u.length + 1).toNat from by omega, ← List.range_eq_range'] at hw
  cases hf : (List.range ((t.length : Int) - u.length + 1).toNat).find? (hit H.env t u) with
  | none =>
    rw [hf] at hw
    exact ⟨_, ev_seq h1 (ev_seq h2 (ev_seq h3 (ev_seq hw (ev_seq_ret (ev_ret (st := st) (env := []) rfl ev_nil)))))⟩
  | some j =>
    rw [hf] at hw
    exact ⟨_, ev_seq h1 (ev_seq h2 (ev_seq h3 (ev_seq_ret hw)))⟩

theorem last_loop (hL : H.lib = stdLib) (h : Loaded g st l) {t u : Bytes} (ht : (t.length : Int) + 1 < 2147483648) (hu : (u.length : Int) < 2147483648) :
    ∀ (d m : Nat), d ≤ ((t.length : Int) - u.length + 2).toNat → d < m →
    ∃ env, loop (one (.bin .gte (.id N.i) (.num N.d0)) (eval H n run (.bin .gte (.id N.i) (.num N.d0)) false))
      (noValue (eval H n run (.block (.seq (.ifs (.bin .eq (.call (.field (.id N.string) N.sub) (.arg (.arg (.arg .noArg (.id N.s)) (.id N.i)) (.bin .add (.id N.i) (.id N.lm)))) (.id N.m)) (.ret (.id N.i)))
   (.seq (.assign (.id N.i) (.bin .sub (.id N.i) (.num N.d1))) .skip))) false)) m ⟨g, st, .fn (idxEnv l t u ((d : Int) - 1))⟩
      = match (List.range d).reverse.find? (hit H.env t u) with
        | some j => .ret (.int j) ⟨g, st, .fn env⟩
        | none => .ok [] ⟨g, st, .fn env⟩ := by
  intro d
  induction d with
  | zero =>
    intro m hd hm
    obtain ⟨m, rfl⟩ : ∃ k, m = k + 1 := ⟨m - 1, by omega⟩
    have hc := ev_bin (H := H) (n := n) (run := run) (s := ⟨g, st, .fn (idxEnv l t u (((0 : Nat) : Int) - 1))⟩) (p := false) (a := .id N.i) (b := .num N.d0) rfl rfl (ev_loc rfl) (ev_num const0) ev_gte
    refine ⟨_, loop_end (ev_one rfl hc) ?_⟩
    rw [truth_ofBool, decide_eq_false (by omega)]
  | succ d ih =>
    intro m hd hm
    obtain ⟨m, rfl⟩ : ∃ k, m = k + 1 := ⟨m - 1, by omega⟩
    rw [show ((d + 1 : Nat) : Int) - 1 = d from by omega]
    have hc := ev_bin (H := H) (n := n) (run := run) (s := ⟨g, st, .fn (idxEnv l t u d)⟩) (p := false) (a := .id N.i) (b := .num N.d0) rfl rfl (ev_loc rfl) (ev_num const0) ev_gte
    have hb := idx_body (n := n) (run := run) (t := t) (u := u) (i := d) (j := d - 1) (e := .bin .sub (.id N.i) (.num N.d1)) hL h (by simp [short]; omega) (by constructor <;> omega) rfl
      (ev_bin rfl rfl (ev_loc rfl) (ev_num const1) (ev_sub (by constructor <;> omega)))
    have htr : truth (ofBool (decide ((d : Int) ≥ 0))) = true := by rw [truth_ofBool, decide_eq_true (by omega)]
    rw [List.range_succ, List.reverse_append, List.reverse_singleton, List.singleton_append, List.find?_cons]
    cases hh : hit H.env t u d
    · rw [hh, if_neg (by simp)] at hb
      rw [loop_go (ev_one rfl hc) htr (ev_noValue hb)]
      exact ih m (by omega) (by omega)
    · rw [hh, if_pos rfl] at hb
      exact ⟨_, loop_ret (ev_one rfl hc) htr (ev_noValue_ret hb)⟩

/-- The loop does nothing when the second text is longer by two. -/
theorem last_none {t u : Bytes} {i : Int} {b : Ev Unit} {m : Nat} (hi : i < 0) :
    loop (one (.bin .gte (.id N.i) (.num N.d0)) (eval H n run (.bin .gte (.id N.i) (.num N.d0)) false)) b (m + 1) ⟨g, st, .fn (idxEnv l t u i)⟩ = .ok [] ⟨g, st, .fn (idxEnv l t u i)⟩ := by
  have hc := ev_bin (H := H) (n := n) (run := run) (s := ⟨g, st, .fn (idxEnv l t u i)⟩) (p := false) (a := .id N.i) (b := .num N.d0) rfl rfl (ev_loc rfl) (ev_num const0) ev_gte
  refine loop_end (ev_one rfl hc) ?_
  rw [truth_ofBool, decide_eq_false (by omega)]

theorem last_body (hL : H.lib = stdLib) (h : Loaded g st l) {t u : Bytes} (ht : (t.length : Int) + 1 < 2147483648) (hu : (u.length : Int) < 2147483648) (hn : t.length + 2 < n) :
    ∃ env, eval H n run indexoflastBody false ⟨g, st, .fn [(self, .tab l), (N.s, .str 0 t), (N.m, .str 0 u)]⟩
      = .ret (found ((List.range ((t.length : Int) - u.length + 2).toNat).reverse.find? (hit H.env t u))) ⟨g, st, .fn env⟩ := by
  have h1 := ev_init (H := H) (n := n) (run := run) (g := g) (st := st) (env := [(self, .tab l), (N.s, .str 0 t), (N.m, .str 0 u)]) (x := N.ls) (p := false) rfl (lim (by simp)) rfl
    (ev_length hL h rfl rfl (by simp [short]; omega) (ev_loc (v := .str 0 t) (x := N.s) rfl)) rfl
  have h2 := ev_init (H := H) (n := n) (run := run) (g := g) (st := st) (env := [(self, .tab l), (N.s, .str 0 t), (N.m, .str 0 u), (N.ls, .int t.length)]) (x := N.lm) (p := false) rfl (lim (by simp)) rfl
    (ev_length hL h rfl rfl (by simp [short]; omega) (ev_loc (v := .str 0 u) (x := N.m) rfl)) rfl
  have h3 := ev_init (H := H) (n := n) (run := run) (g := g) (st := st) (env := [(self, .tab l), (N.s, .str 0 t), (N.m, .str 0 u), (N.ls, .int t.length), (N.lm, .int u.length)]) (x := N.i) (p := false) rfl (lim (by simp)) rfl
    (ev_bin rfl rfl (ev_bin rfl rfl (ev_loc (x := N.ls) (v := .int t.length) rfl) (ev_loc (x := N.lm) (v := .int u.length) rfl) (ev_sub (by constructor <;> omega))) (ev_num const1) (ev_add (by constructor <;> omega))) rfl
  by_cases hlt : (t.length : Int) - u.length + 1 < 0
  · obtain ⟨n, rfl⟩ : ∃ k, n = k + 1 := ⟨n - 1, by omega⟩
    rw [show ((t.length : Int) - u.length + 2).toNat = 0 from by omega]
    have hw := (ev_while (H := H) (n := n + 1) (run := run) (p := false) (a := (.block (.seq (.ifs (.bin .eq (.call (.field (.id N.string) N.sub) (.arg (.arg (.arg .noArg (.id N.s)) (.id N.i)) (.bin .add (.id N.i) (.id N.lm)))) (.id N.m)) (.ret (.id N.i)))
   (.seq (.assign (.id N.i) (.bin .sub (.id N.i) (.num N.d1))) .skip)))) rfl rfl).trans (last_none (t := t) (u := u) (st := st) (g := g) (l := l) hlt)
    exact ⟨_, ev_seq h1 (ev_seq h2 (ev_seq h3 (ev_seq hw (ev_seq_ret (ev_ret (st := st) (env := []) rfl ev_nil)))))⟩
  · obtain ⟨env, hl⟩ := last_loop (n := n) (run := run) hL h ht hu _ n (Nat.le_refl _) (by omega)
    rw [show (((((t.length : Int) - u.length + 2).toNat : Nat) : Int) - 1) = (t.length : Int) - u.length + 1 from by omega] at hl
    have hw := (ev_while (p := false) rfl rfl).trans hl
    cases hf : (List.range ((t.length : Int) - u.length + 2).toNat).reverse.find? (hit H.env t u) with
    | none =>
      rw [hf] at hw
      exact ⟨_, ev_seq h1 (ev_seq h2 (ev_seq h3 (ev_seq hw (ev_seq_ret (ev_ret (st := st) (env := []) rfl ev_nil)))))⟩
    | some j =>
      rw [hf] at hw
      exact ⟨_, ev_seq h1 (ev_seq h2 (ev_seq h3 (ev_seq_ret hw)))⟩

/-! ### `string.split` -/

/-- A call of `string.charat`. -/
theorem ev_charat {m : Nat} (hL : H.lib = stdLib) (h : Loaded g st l) (he : valueOf N.string env = none) {a b : Ast} {t : Bytes} {i : Nat} {p : Bool} (da : decls a = [])
    (db : decls b = []) (ht : short t) (hi : In32 (i + 1)) (ha : eval H n (exec H m) a false ⟨g, st, .fn env⟩ = .ok [.str 0 t] ⟨g, st, .fn env⟩)
    (hb : eval H n (exec H m) b false ⟨g, st, .fn env⟩ = .ok [.int i] ⟨g, st, .fn env⟩) :
    eval H n (exec H m) (.call (.field (.id N.string) N.charat) (.arg (.arg .noArg a) b)) p ⟨g, st, .fn env⟩ = .ok [charVal t i] ⟨g, st, .fn env⟩ := by
  obtain ⟨f, h1, h2⟩ := ev_string (H := H) (n := n) (run := exec H m) h he (k := N.charat) (t := .fn [N.s, N.n] charatBody [(self, .tab l)]) (by simp [stringFns])
  refine ev_call rfl rfl h2 (ev_arg db (ev_arg da ev_noArg ha) hb) ?_
  refine apply_fn (s' := ⟨g, st, .fn [(self, .tab l), (N.s, .str 0 t), (N.n, .int i)]⟩) h1 (lim (by simp)) rfl (lim (by simp)) ?_
  cases m with
  | zero => exact charat_body hL h ht hi
  | succ m => exact charat_body hL h ht hi

/-- Writing an element of a table. -/
theorem ev_setidx {r k e : Ast} {t kv v : Obj} {p : Bool} {s s1 s2 s3 s4 : St} (dr : decls r = []) (dk : decls k = []) (de : decls e = []) (hr : eval H n run r false s = .ok [t] s1)
    (hk : eval H n run k false s1 = .ok [kv] s2) (he : eval H n run e false s2 = .ok [v] s3) (h : tabPut t kv v s3 = .ok () s4) :
    eval H n run (.assign (.index r k) e) p s = .ok [] s4 := by
  rw [eval, if_pos (show isRef (.index r k) = true from rfl)]
  have h0 : eval H n run (.index r k) true s = .ok [t, kv] s2 := by
    rw [eval]
    exact (ev_bind (ev_one dr hr)).trans ((ev_bind (ev_one dk hk)).trans rfl)
  refine (ev_bind h0).trans ((ev_bind (ev_one de he)).trans ?_)
  exact (ev_bind (show Lang.store (.index r k) [t, kv] v s3 = .ok () s4 from h)).trans rfl

/-- The table of a list of texts: element `i` under the key `i`. -/
def tokens (P : List Bytes) : List (Obj × Obj) := P.zipIdx.map fun e => (.int (e.2 : Nat), .str 0 e.1)

theorem tokens_snoc (P : List Bytes) (p : Bytes) : tokens (P ++ [p]) = tokens P ++ [(.int P.length, .str 0 p)] := by
  simp [tokens, List.zipIdx_append]

theorem tokens_int (P : List Bytes) : ∀ e ∈ tokens P, ∃ i : Nat, i < P.length ∧ e.1 = .int i := by
  intro e he
  obtain ⟨⟨a, i⟩, h1, h2⟩ := List.mem_map.mp he
  have := List.mem_zipIdx h1
  exact ⟨i, by omega, by rw [← h2]⟩

/-- Writing the next element. -/
theorem put_token {P : List Bytes} {p : Bytes} {sc : Scope} : tabPut (.tab st.length) (.int P.length) (.str 0 p) ⟨g, st ++ [.tab (tokens P)], sc⟩ = .ok () ⟨g, st ++ [.tab (tokens (P ++ [p]))], sc⟩ := by
  have hl : look st.length ⟨g, st ++ [.tab (tokens P)], sc⟩ = .ok (.tab (tokens P)) ⟨g, st ++ [.tab (tokens P)], sc⟩ := by
    unfold look
    simp
  refine (ev_bind hl).trans ?_
  have h1 : ((tokens P).all fun e => sameKind (.int P.length) e.1) = true := by
    rw [List.all_eq_true]
    intro e he
    obtain ⟨i, _, h⟩ := tokens_int P e he
    rw [h]
    rfl
  have h2 : (tokens P).filter (fun e => e.1 ≠ .int P.length) = tokens P := by
    rw [List.filter_eq_self]
    intro e he
    obtain ⟨i, hi, h⟩ := tokens_int P e he
    rw [h]
    simp
    omega
  show (if isKey (.int P.length) then (if (sameKind (.int P.length) (.int P.length) && (tokens P).all fun e => sameKind (.int P.length) e.1) = true then
    change st.length (.tab ((tokens P).filter (fun e => e.1 ≠ .int P.length) ++ [(.int P.length, .str 0 p)])) else odd) else raise .type) _ = _
  rw [if_pos (show isKey (.int P.length) = true from rfl), if_pos (by rw [h1]; rfl), h2, ← tokens_snoc]
  unfold change
  dsimp only
  rw [List.set_append_right _ _ (Nat.le_refl _), Nat.sub_self]
  rfl

/-- A byte is a delimiter. -/
def isDel (E : Env) (d : Bytes) (c : UInt8) : Bool := d.any fun x => same E [c] [x]

/-- The pieces of a text: `cur` is the piece that has been read so far. -/
def pieces (del : UInt8 → Bool) : Bytes → Bytes → List Bytes
  | cur, [] => if cur = [] then [] else [cur]
  | cur, c :: r => if del c then (if cur = [] then [] else [cur]) ++ pieces del [] r else pieces del (cur ++ [c]) r

/-- The variables of `split`. -/
def spEnv (l L : Nat) (t d : Bytes) (i1 i2 c : Nat) : List (Bytes × Obj) :=
  [(self, .tab l), (N.s, .str 0 t), (N.d, .str 0 d), (N.i1, .int i1), (N.i2, .int i2), (N.c, .int c), (N.t, .tab L), (N.ls, .int t.length), (N.ld, .int d.length)]

/-- The condition of the inner loop. -/
def inCond : Ast := .bin .land (.bin .lt (.id N.j) (.id N.ld)) (.un .lnot (.id N.f))

/-- Adding a piece. -/
def addPiece (r : Ast) : Ast :=
  .ifs (.bin .gt (.id N.i2) (.id N.i1)) (.block (.seq (.assign (.index (.id N.t) (.id N.c)) (.call (.field (.id N.string) N.sub) (.arg (.arg (.arg .noArg (.id N.s)) (.id N.i1)) (.id N.i2)))) r))

/-- The body of the inner loop. -/
def inStep : Ast :=
  .block (.seq (.ite (.bin .eq (.call (.field (.id N.string) N.charat) (.arg (.arg .noArg (.id N.s)) (.id N.i2))) (.call (.field (.id N.string) N.charat) (.arg (.arg .noArg (.id N.d)) (.id N.j))))
    (.block (.seq (.assign (.id N.f) (.num N.d1)) (.seq (addPiece (.seq (.assign (.id N.c) (.bin .add (.id N.c) (.num N.d1))) .skip))
      (.seq (.assign (.id N.i1) (.bin .add (.id N.i2) (.num N.d1))) .skip))))
    (.block (.seq (.assign (.id N.j) (.bin .add (.id N.j) (.num N.d1))) .skip))) .skip)

/-- The body of the outer loop. -/
def outBlock : Ast :=
  .block (.seq (.init N.j (.num N.d0)) (.seq (.init N.f .nil) (.seq (.while_ inCond inStep) (.seq (.assign (.id N.i2) (.bin .add (.id N.i2) (.num N.d1))) .skip))))

/-- The condition of the outer loop. -/
def outCond : Ast := .bin .lt (.id N.i2) (.id N.ls)

theorem split_shape : splitBody = .seq (.init N.i1 (.num N.d0)) (.seq (.init N.i2 (.num N.d0)) (.seq (.init N.c (.num N.d0)) (.seq (.init N.t .tnew)
    (.seq (.init N.ls (.call (.field (.id N.string) N.length) (.arg .noArg (.id N.s)))) (.seq (.init N.ld (.call (.field (.id N.string) N.length) (.arg .noArg (.id N.d))))
    (.seq (.while_ outCond outBlock) (.seq (addPiece .skip) (.seq (.ret (.id N.t)) .skip)))))))) := rfl

theorem in_cond {t d : Bytes} {i1 i2 c j L : Nat} {f : Obj} : eval H n run inCond false ⟨g, st, .fn (spEnv l L t d i1 i2 c ++ [(N.j, .int j), (N.f, f)])⟩
    = .ok [ofBool (decide (j < d.length) && !truth f)] ⟨g, st, .fn (spEnv l L t d i1 i2 c ++ [(N.j, .int j), (N.f, f)])⟩ := by
  refine ev_bin rfl rfl (ev_bin rfl rfl (ev_loc rfl) (ev_loc rfl) ev_lt) (ev_un (v := ofBool (!truth f)) rfl (ev_loc rfl) rfl) ?_
  have : ∀ a b : Bool, binary H .land (ofBool a) (ofBool b) ⟨g, st, .fn (spEnv l L t d i1 i2 c ++ [(N.j, .int j), (N.f, f)])⟩ = .ok (ofBool (a && b)) ⟨g, st, .fn (spEnv l L t d i1 i2 c ++ [(N.j, .int j), (N.f, f)])⟩ := by
    intro a b
    cases a <;> cases b <;> rfl
  rw [this, show decide ((j : Int) < (d.length : Int)) = decide (j < d.length) from decide_eq_decide.mpr (by omega)]

/-- The piece between two places. -/
def cut (t : Bytes) (i1 i2 : Nat) : List Bytes := if i2 > i1 then [(t.take i2).drop i1] else []

theorem sub_cut {t : Bytes} {i1 i2 : Nat} (h : i1 < i2) (h2 : i2 ≤ t.length) : subVal t i1 i2 = .str 0 ((t.take i2).drop i1) := by
  unfold subVal
  rw [if_neg (by omega)]
  rfl

/-- Adding a piece: `r` is what follows in the block. -/
theorem add_piece (hL : H.lib = stdLib) (h : Loaded g st l) {t d : Bytes} {i1 i2 : Nat} {P : List Bytes} {env' : List (Bytes × Obj)} {c' : Nat} {r : Ast} (he : valueOf N.string env' = none) (ht : short t) (h2 : i2 ≤ t.length)
    (dr : i2 > i1 → eval H n run r false ⟨g, st ++ [.tab (tokens (P ++ cut t i1 i2))], .fn (spEnv l st.length t d i1 i2 P.length ++ env')⟩
      = .ok [] ⟨g, st ++ [.tab (tokens (P ++ cut t i1 i2))], .fn (spEnv l st.length t d i1 i2 c' ++ env')⟩) (hc : ¬ i2 > i1 → c' = P.length) :
    eval H n run (addPiece r) false ⟨g, st ++ [.tab (tokens P)], .fn (spEnv l st.length t d i1 i2 P.length ++ env')⟩
      = .ok [] ⟨g, st ++ [.tab (tokens (P ++ cut t i1 i2))], .fn (spEnv l st.length t d i1 i2 c' ++ env')⟩ := by
  have hcond := ev_ifs (H := H) (n := n) (run := run) (p := false) (a := .block (.seq (.assign (.index (.id N.t) (.id N.c)) (.call (.field (.id N.string) N.sub) (.arg (.arg (.arg .noArg (.id N.s)) (.id N.i1)) (.id N.i2)))) r))
    (s := ⟨g, st ++ [.tab (tokens P)], .fn (spEnv l st.length t d i1 i2 P.length ++ env')⟩) rfl rfl
    (ev_bin (a := .id N.i2) (b := .id N.i1) rfl rfl (ev_loc rfl) (ev_loc rfl) ev_gt)
  refine hcond.trans ?_
  rw [truth_ofBool]
  have h' : Loaded g (st ++ [.tab (tokens P)]) l := h.grow (fun i hi => by rw [List.getElem?_append_left hi])
  by_cases hlt : i2 > i1
  · rw [if_pos (decide_eq_true (by omega))]
    have hput := put_token (g := g) (st := st) (P := P) (p := (t.take i2).drop i1) (sc := .fn (spEnv l st.length t d i1 i2 P.length ++ env'))
    have hcut : cut t i1 i2 = [(t.take i2).drop i1] := if_pos hlt
    rw [hcut] at dr ⊢
    rw [← sub_cut hlt h2] at hput
    have := ev_block (ev_seq (ev_setidx (H := H) (n := n) (run := run) (p := false) rfl rfl rfl (ev_loc (x := N.t) rfl) (ev_loc (x := N.c) rfl)
      (ev_substr (env := spEnv l st.length t d i1 i2 P.length ++ env') (i := i1) hL h' he rfl rfl rfl ht (by omega) (ev_loc (x := N.s) rfl) (ev_loc (x := N.i1) rfl) (ev_loc (x := N.i2) rfl)) hput) (dr hlt)) (p := false)
    refine this.trans ?_
    have hlen : (spEnv l st.length t d i1 i2 c' ++ env').length ≤ (spEnv l st.length t d i1 i2 P.length ++ env').length := by simp [spEnv]
    rw [List.take_of_length_le hlen]
  · rw [if_neg (by simp; omega), hc hlt]
    have hcut : cut t i1 i2 = [] := if_neg hlt
    rw [hcut, List.append_nil]

/-- What the search of a delimiter does: `P`, the number of pieces and the start of the next piece. -/
theorem in_loop {m : Nat} (hL : H.lib = stdLib) (h : Loaded g st l) {t d : Bytes} {i1 i2 : Nat} {P : List Bytes} {x : UInt8} (ht : (t.length : Int) + 1 < 2147483648) (hd : (d.length : Int) + 1 < 2147483648)
    (hx : t[i2]? = some x) (hP : P.length ≤ i2) :
    ∀ (rest pre : Bytes) (k : Nat), d = pre ++ rest → rest.length + 1 < k →
    ∃ (j : Nat) (f : Obj), loop (one inCond (eval H n (exec H m) inCond false)) (noValue (eval H n (exec H m) inStep false)) k
        ⟨g, st ++ [.tab (tokens P)], .fn (spEnv l st.length t d i1 i2 P.length ++ [(N.j, .int pre.length), (N.f, .nil)])⟩
      = if rest.any (fun y => same H.env [x] [y]) then
          .ok [] ⟨g, st ++ [.tab (tokens (P ++ cut t i1 i2))], .fn (spEnv l st.length t d (i2 + 1) i2 (P ++ cut t i1 i2).length ++ [(N.j, .int j), (N.f, f)])⟩
        else .ok [] ⟨g, st ++ [.tab (tokens P)], .fn (spEnv l st.length t d i1 i2 P.length ++ [(N.j, .int j), (N.f, f)])⟩ := by
  have hi2 : i2 < t.length := (List.getElem?_eq_some_iff.mp hx).1
  have h' : Loaded g (st ++ [.tab (tokens P)]) l := h.grow (fun i hi => by rw [List.getElem?_append_left hi])
  intro rest
  induction rest with
  | nil =>
    intro pre k hpre hk
    obtain ⟨k, rfl⟩ : ∃ k', k = k' + 1 := ⟨k - 1, by omega⟩
    refine ⟨pre.length, .nil, ?_⟩
    rw [List.any_nil, if_neg (by simp)]
    refine loop_end (ev_one rfl in_cond) ?_
    rw [truth_ofBool, decide_eq_false (by rw [hpre]; simp)]
    rfl
  | cons y rest ih =>
    intro pre k hpre hk
    obtain ⟨k, rfl⟩ : ∃ k', k = k' + 1 := ⟨k - 1, by omega⟩
    have hpl : pre.length < d.length := by rw [hpre, List.length_append, List.length_cons]; omega
    have hy : charVal d pre.length = .str 0 [y] := by
      unfold charVal
      rw [hpre, List.getElem?_append_right (Nat.le_refl _), Nat.sub_self]
      rfl
    have hxv : charVal t i2 = .str 0 [x] := by
      unfold charVal
      rw [hx]
    have htr : truth (ofBool (decide (pre.length < d.length) && !truth .nil)) = true := by rw [truth_ofBool, decide_eq_true hpl]; rfl
    have hcond : eval H n (exec H m) (.bin .eq (.call (.field (.id N.string) N.charat) (.arg (.arg .noArg (.id N.s)) (.id N.i2))) (.call (.field (.id N.string) N.charat) (.arg (.arg .noArg (.id N.d)) (.id N.j)))) false
        ⟨g, st ++ [.tab (tokens P)], .fn (spEnv l st.length t d i1 i2 P.length ++ [(N.j, .int pre.length), (N.f, .nil)])⟩
        = .ok [ofBool (same H.env [x] [y])] ⟨g, st ++ [.tab (tokens P)], .fn (spEnv l st.length t d i1 i2 P.length ++ [(N.j, .int pre.length), (N.f, .nil)])⟩ := by
      refine ev_bin (x := charVal t i2) (y := charVal d pre.length) rfl rfl (ev_charat hL h' rfl rfl rfl (by simp [short]; omega) (by constructor <;> omega) (ev_loc rfl) (ev_loc rfl))
        (ev_charat hL h' rfl rfl rfl (by simp [short]; omega) (by constructor <;> omega) (ev_loc rfl) (ev_loc rfl)) ?_
      rw [hxv, hy]
      exact ev_eq
    have hite := ev_ite (p := false) (a := (.block (.seq (.assign (.id N.f) (.num N.d1)) (.seq (addPiece (.seq (.assign (.id N.c) (.bin .add (.id N.c) (.num N.d1))) .skip))
      (.seq (.assign (.id N.i1) (.bin .add (.id N.i2) (.num N.d1))) .skip))))) (b := (.block (.seq (.assign (.id N.j) (.bin .add (.id N.j) (.num N.d1))) .skip))) rfl rfl rfl hcond
    rw [truth_ofBool] at hite
    cases hs : same H.env [x] [y]
    · rw [hs, if_neg (by simp)] at hite
      have hj := ev_block (H := H) (n := n) (run := exec H m) (p := false) (env := spEnv l st.length t d i1 i2 P.length ++ [(N.j, .int pre.length), (N.f, .nil)]) (g := g) (st := st ++ [.tab (tokens P)])
        (ev_seq (ev_set (x := N.j) rfl (ev_bin rfl rfl (ev_loc (x := N.j) rfl) (ev_num const1) (ev_add (by constructor <;> omega))) rfl) ev_skip)
      have hb := ev_block (p := false) (ev_seq (hite.trans hj) ev_skip)
      obtain ⟨j, f, hih⟩ := ih (pre ++ [y]) k (by rw [hpre]; simp) (by simp at hk; omega)
      refine ⟨j, f, ?_⟩
      rw [List.any_cons, hs, Bool.false_or]
      refine (loop_go (ev_one rfl in_cond) htr (ev_noValue hb)).trans ?_
      rw [List.length_append] at hih
      exact hih
    · rw [hs, if_pos rfl] at hite
      have hf := ev_set (H := H) (n := n) (run := exec H m) (p := false) (x := N.f) (e := .num N.d1) (env' := spEnv l st.length t d i1 i2 P.length ++ [(N.j, .int pre.length), (N.f, .nil)])
        (g' := g) (st' := st ++ [.tab (tokens P)]) rfl (ev_num const1) rfl
      have ha := add_piece (n := n) (run := exec H m) (t := t) (d := d) (i1 := i1) (i2 := i2) (P := P) (env' := [(N.j, .int pre.length), (N.f, .int 1)]) (c' := (P ++ cut t i1 i2).length)
        (r := .seq (.assign (.id N.c) (.bin .add (.id N.c) (.num N.d1))) .skip) hL h rfl (by simp [short]; omega) (by omega)
        (fun hlt => by
          refine ev_seq ((ev_set (x := N.c) rfl (ev_bin rfl rfl (ev_loc (x := N.c) rfl) (ev_num const1) (ev_add (by constructor <;> omega))) rfl).trans ?_) ev_skip
          rw [show (P ++ cut t i1 i2).length = P.length + 1 from by rw [cut, if_pos hlt]; simp]
          rfl)
        (fun hlt => by rw [cut, if_neg hlt]; simp)
      have hi := ev_set (H := H) (n := n) (run := exec H m) (p := false) (x := N.i1) (e := .bin .add (.id N.i2) (.num N.d1))
        (env' := spEnv l st.length t d i1 i2 (P ++ cut t i1 i2).length ++ [(N.j, .int pre.length), (N.f, .int 1)])
        (g' := g) (st' := st ++ [.tab (tokens (P ++ cut t i1 i2))]) rfl (ev_bin rfl rfl (ev_loc (x := N.i2) rfl) (ev_num const1) (ev_add (by constructor <;> omega))) rfl
      have hb := ev_block (p := false) (ev_seq (hite.trans (ev_block (ev_seq hf (ev_seq ha (ev_seq hi ev_skip))))) ev_skip)
      refine ⟨pre.length, .int 1, ?_⟩
      rw [List.any_cons, hs, Bool.true_or, if_pos rfl]
      refine (loop_go (ev_one rfl in_cond) htr (ev_noValue hb)).trans ?_
      obtain ⟨k, rfl⟩ : ∃ k', k = k' + 1 := ⟨k - 1, by simp at hk; omega⟩
      refine loop_end (ev_one rfl (in_cond (i1 := i2 + 1) (c := (P ++ cut t i1 i2).length) (f := .int 1))) ?_
      rw [truth_ofBool, show truth (.int 1) = true from rfl]
      simp

theorem out_cond {t d : Bytes} {i1 i2 c L : Nat} : eval H n run outCond false ⟨g, st, .fn (spEnv l L t d i1 i2 c)⟩
    = .ok [ofBool (decide (i2 < t.length))] ⟨g, st, .fn (spEnv l L t d i1 i2 c)⟩ := by
  rw [← show decide ((i2 : Int) < (t.length : Int)) = decide (i2 < t.length) from decide_eq_decide.mpr (by omega)]
  exact ev_bin rfl rfl (ev_loc rfl) (ev_loc rfl) ev_lt

theorem out_loop {m : Nat} (hL : H.lib = stdLib) (h : Loaded g st l) {t d : Bytes} (ht : (t.length : Int) + 1 < 2147483648) (hd : (d.length : Int) + 1 < 2147483648) (hn : d.length + 1 < n) :
    ∀ (rest cur pre : Bytes) (P : List Bytes) (k : Nat), t = pre ++ cur ++ rest → P.length ≤ pre.length → rest.length < k →
    ∃ (P' : List Bytes) (i1 : Nat), P' ++ cut t i1 t.length = P ++ pieces (isDel H.env d) cur rest ∧
      loop (one outCond (eval H n (exec H m) outCond false)) (noValue (eval H n (exec H m) outBlock false)) k
        ⟨g, st ++ [.tab (tokens P)], .fn (spEnv l st.length t d pre.length (pre ++ cur).length P.length)⟩
      = .ok [] ⟨g, st ++ [.tab (tokens P')], .fn (spEnv l st.length t d i1 t.length P'.length)⟩ := by
  intro rest
  induction rest with
  | nil =>
    intro cur pre P k htt hP hk
    obtain ⟨k, rfl⟩ : ∃ k', k = k' + 1 := ⟨k - 1, by omega⟩
    rw [List.append_nil] at htt
    refine ⟨P, pre.length, ?_, ?_⟩
    · congr 1
      unfold cut pieces
      rw [htt]
      cases cur with
      | nil => simp
      | cons c r => rw [if_pos (by simp), if_neg (by simp), List.take_length, List.drop_left]
    · rw [← htt]
      refine loop_end (ev_one rfl out_cond) ?_
      rw [truth_ofBool]
      simp
  | cons x rest ih =>
    intro cur pre P k htt hP hk
    obtain ⟨k, rfl⟩ : ∃ k', k = k' + 1 := ⟨k - 1, by omega⟩
    have htl : (pre ++ cur).length < t.length := by rw [htt]; simp
    have hx : t[(pre ++ cur).length]? = some x := by rw [htt]; simp
    have htr : truth (ofBool (decide ((pre ++ cur).length < t.length))) = true := by rw [truth_ofBool, decide_eq_true htl]
    have h1 := ev_init (H := H) (n := n) (run := exec H m) (g := g) (st := st ++ [.tab (tokens P)]) (env := spEnv l st.length t d pre.length (pre ++ cur).length P.length) (x := N.j) (p := false) rfl
      (lim (by simp [spEnv])) rfl (ev_num const0) rfl
    have h2 := ev_init (H := H) (n := n) (run := exec H m) (g := g) (st := st ++ [.tab (tokens P)]) (env := spEnv l st.length t d pre.length (pre ++ cur).length P.length ++ [(N.j, .int 0)]) (x := N.f) (p := false) rfl
      (lim (by simp [spEnv])) rfl ev_nil rfl
    obtain ⟨j, f, hin⟩ := in_loop (m := m) (n := n) (i1 := pre.length) (P := P) hL h ht hd hx (by rw [List.length_append]; omega) d [] n rfl hn
    have hw := (ev_while (p := false) rfl rfl).trans hin
    have hdel : isDel H.env d x = d.any fun y => same H.env [x] [y] := rfl
    rw [← hdel] at hw
    have hcut : cut t pre.length (pre ++ cur).length = if cur = [] then [] else [cur] := by
      unfold cut
      rw [htt]
      cases cur with
      | nil => simp
      | cons c r =>
        rw [if_pos (by simp), if_neg (by simp), List.append_assoc, ← List.append_assoc pre, List.take_left, List.drop_left]
    cases hdx : isDel H.env d x
    · rw [hdx, if_neg (by simp)] at hw
      have hi := ev_set (H := H) (n := n) (run := exec H m) (p := false) (x := N.i2) (e := .bin .add (.id N.i2) (.num N.d1))
        (env' := spEnv l st.length t d pre.length (pre ++ cur).length P.length ++ [(N.j, .int j), (N.f, f)]) (g' := g) (st' := st ++ [.tab (tokens P)]) rfl
        (ev_bin rfl rfl (ev_loc (x := N.i2) rfl) (ev_num const1) (ev_add (by constructor <;> omega))) rfl
      have hb := ev_block (p := false) (ev_seq h1 (ev_seq h2 (ev_seq hw (ev_seq hi ev_skip))))
      obtain ⟨P', i1, hp, hl⟩ := ih (cur ++ [x]) pre P k (by rw [htt]; simp) hP (by simp at hk; omega)
      refine ⟨P', i1, ?_, ?_⟩
      · rw [hp]
        rw [show pieces (isDel H.env d) cur (x :: rest) = pieces (isDel H.env d) (cur ++ [x]) rest from by rw [pieces, hdx, if_neg (by simp)]]
      · refine (loop_go (ev_one rfl out_cond) htr (ev_noValue hb)).trans ?_
        rw [← List.append_assoc, List.length_append (bs := [x])] at hl
        exact hl
    · rw [hdx, if_pos rfl] at hw
      have hi := ev_set (H := H) (n := n) (run := exec H m) (p := false) (x := N.i2) (e := .bin .add (.id N.i2) (.num N.d1))
        (env' := spEnv l st.length t d ((pre ++ cur).length + 1) (pre ++ cur).length (P ++ cut t pre.length (pre ++ cur).length).length ++ [(N.j, .int j), (N.f, f)]) (g' := g)
        (st' := st ++ [.tab (tokens (P ++ cut t pre.length (pre ++ cur).length))]) rfl
        (ev_bin rfl rfl (ev_loc (x := N.i2) rfl) (ev_num const1) (ev_add (by constructor <;> omega))) rfl
      have hb := ev_block (p := false) (ev_seq h1 (ev_seq h2 (ev_seq hw (ev_seq hi ev_skip))))
      obtain ⟨P', i1, hp, hl⟩ := ih [] (pre ++ cur ++ [x]) (P ++ cut t pre.length (pre ++ cur).length) k (by rw [htt]; simp)
        (by
          rw [hcut]
          cases cur with
          | nil => simp; omega
          | cons c r => simp; omega)
        (by simp at hk; omega)
      refine ⟨P', i1, ?_, ?_⟩
      · rw [hp, hcut, List.append_assoc]
        rw [show pieces (isDel H.env d) cur (x :: rest) = (if cur = [] then [] else [cur]) ++ pieces (isDel H.env d) [] rest from by rw [pieces, hdx, if_pos rfl]]
      · refine (loop_go (ev_one rfl out_cond) htr (ev_noValue hb)).trans ?_
        rw [List.append_nil, List.length_append (bs := [x])] at hl
        exact hl

theorem split_body {m : Nat} (hL : H.lib = stdLib) (h : Loaded g st l) {t d : Bytes} (ht : (t.length : Int) + 1 < 2147483648) (hd : (d.length : Int) + 1 < 2147483648) (hn : d.length + 1 < n)
    (hn' : t.length < n) : ∃ env, eval H n (exec H m) splitBody false ⟨g, st, .fn [(self, .tab l), (N.s, .str 0 t), (N.d, .str 0 d)]⟩
      = .ret (.tab st.length) ⟨g, st ++ [.tab (tokens (pieces (isDel H.env d) [] t))], .fn env⟩ := by
  have e0 : List (Bytes × Obj) := []
  have h' : Loaded g (st ++ [.tab (tokens [])]) l := h.grow (fun i hi => by rw [List.getElem?_append_left hi])
  have h1 := ev_init (H := H) (n := n) (run := exec H m) (g := g) (st := st) (env := [(self, .tab l), (N.s, .str 0 t), (N.d, .str 0 d)]) (x := N.i1) (p := false) rfl (lim (by simp)) rfl (ev_num const0) rfl
  have h2 := ev_init (H := H) (n := n) (run := exec H m) (g := g) (st := st) (env := [(self, .tab l), (N.s, .str 0 t), (N.d, .str 0 d), (N.i1, .int 0)]) (x := N.i2) (p := false) rfl (lim (by simp)) rfl (ev_num const0) rfl
  have h3 := ev_init (H := H) (n := n) (run := exec H m) (g := g) (st := st) (env := [(self, .tab l), (N.s, .str 0 t), (N.d, .str 0 d), (N.i1, .int 0), (N.i2, .int 0)]) (x := N.c) (p := false) rfl (lim (by simp)) rfl (ev_num const0) rfl
  have h4 := ev_init (H := H) (n := n) (run := exec H m) (g := g) (st := st) (env := [(self, .tab l), (N.s, .str 0 t), (N.d, .str 0 d), (N.i1, .int 0), (N.i2, .int 0), (N.c, .int 0)]) (x := N.t) (p := false) rfl (lim (by simp)) rfl ev_tnew rfl
  have h5 := ev_init (H := H) (n := n) (run := exec H m) (g := g) (st := st ++ [.tab (tokens [])]) (env := [(self, .tab l), (N.s, .str 0 t), (N.d, .str 0 d), (N.i1, .int 0), (N.i2, .int 0), (N.c, .int 0), (N.t, .tab st.length)]) (x := N.ls) (p := false) rfl (lim (by simp)) rfl
    (ev_length hL h' rfl rfl (by simp [short]; omega) (ev_loc (v := .str 0 t) (x := N.s) rfl)) rfl
  have h6 := ev_init (H := H) (n := n) (run := exec H m) (g := g) (st := st ++ [.tab (tokens [])]) (env := [(self, .tab l), (N.s, .str 0 t), (N.d, .str 0 d), (N.i1, .int 0), (N.i2, .int 0), (N.c, .int 0), (N.t, .tab st.length), (N.ls, .int t.length)]) (x := N.ld) (p := false) rfl (lim (by simp)) rfl
    (ev_length hL h' rfl rfl (by simp [short]; omega) (ev_loc (v := .str 0 d) (x := N.d) rfl)) rfl
  obtain ⟨P, i1, hp, hl⟩ := out_loop (m := m) hL h ht hd hn t [] [] [] n rfl (Nat.le_refl _) hn'
  have hw := (ev_while (p := false) rfl rfl).trans hl
  have ha := add_piece (n := n) (run := exec H m) (t := t) (d := d) (i1 := i1) (i2 := t.length) (P := P) (env' := []) (c' := P.length) (r := .skip) hL h rfl (by simp [short]; omega) (Nat.le_refl _)
    (fun _ => ev_skip) (fun _ => rfl)
  rw [hp, List.nil_append] at ha
  rw [List.append_nil] at ha
  rw [split_shape]
  exact ⟨_, ev_seq h1 (ev_seq h2 (ev_seq h3 (ev_seq h4 (ev_seq h5 (ev_seq h6 (ev_seq hw (ev_seq ha (ev_seq_ret (ev_ret (st := st) (env := []) rfl (ev_loc rfl))))))))))⟩

end Call

end Buzz.Props
