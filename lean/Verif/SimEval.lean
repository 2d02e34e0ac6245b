import Verif.SimCall

/-
Compiled code follows the meaning of programs: expressions.
-/
namespace Buzz.Sim

open Buzz.Msg Buzz.Heap Buzz.Props Buzz.VM
open Buzz.Lang (Ast Thing Scope Shape St Host decls eval one noValue)
open Buzz.Parser (Ln Sym Syms lookup stringAdd)
open Buzz.Comp (CS EC Mode Sub Loc Tabs BaseOk comp bodyC binOp unOp nargs keyC symOf known isLocal loadOps comp_grows comp_tabs sub_add get_add sub_known tabs_known tabs_addGlobal
  stacks_key grows_key addGlobal addLocal)

/-! ### Symbols -/

theorem sym_in {c : CS} {xs : List Bytes} {i : Nat} {x : Bytes} (h : Loc c.symstack xs c.strings) (hx : xs[i]? = some x) : known x c = c ∧ symOf x c = ⟨i, false, 0⟩ := by
  have e := h.lookup_in hx
  have e1 : known x c = c := by
    unfold known
    rw [if_neg (by rw [e]; simp)]
  refine ⟨e1, ?_⟩
  unfold symOf
  rw [e1, e]
  rfl

/-- The variables of a shape. -/
def Shape.names : Shape → List Bytes
  | .top => []
  | .inner xs => xs
  | .fn xs => xs

theorem lookup_out {c : CS} {sh : Shape} {x : Bytes} (h : Tabs c sh) (hx : x ∉ Shape.names sh) : ∃ b, BaseOk b c.strings ∧ lookup x c.symstack = FMap.get b x := by
  cases sh with
  | top =>
    obtain ⟨b, h1, h2⟩ := h
    exact ⟨b, h2, by rw [h1, Comp.lookup_base]⟩
  | inner xs => exact Loc.lookup_out h hx
  | fn xs => exact Loc.lookup_out h hx

theorem get_onBase {x : Bytes} {i : Nat} {ts : List Syms} {b : Syms} (h : lookup x (ts ++ [b]) = none) :
    lookup x (Parser.onBase (Parser.setGlobal x i) (ts ++ [b])) = FMap.get (Parser.setGlobal x i b) x := by
  rw [Comp.onBase_append]
  induction ts with
  | nil => exact Comp.lookup_base
  | cons t ts ih =>
    have h' : (match FMap.get t x with | some s => some s | none => lookup x (ts ++ [b])) = none := h
    show (match FMap.get t x with | some s => some s | none => lookup x (ts ++ [_])) = _
    cases ht : FMap.get t x with
    | some s => rw [ht] at h'; cases h'
    | none =>
      rw [ht] at h'
      exact ih h'

theorem sym_out {c : CS} {sh : Shape} {x : Bytes} (h : Tabs c sh) (hx : x ∉ Shape.names sh) :
    (symOf x c).global = true ∧ FMap.get (known x c).strings x = some (symOf x c).pos := by
  obtain ⟨b, hb, e⟩ := lookup_out h hx
  unfold symOf known
  cases hg : FMap.get b x with
  | some sy =>
    rw [hg] at e
    rw [if_neg (by rw [e]; simp), e]
    exact hb (x, sy) (FMap.mem_of_get hg)
  | none =>
    rw [hg] at e
    rw [if_pos e]
    obtain ⟨ts, b', e1, _⟩ := h.split
    have e2 : lookup x (addGlobal x c).symstack = some ⟨(stringAdd c.strings x).2, true, ((FMap.get b' x).map (fun s => s.gen + 1)).getD 0⟩ ∨
        ∃ sy : Sym, lookup x (addGlobal x c).symstack = some sy ∧ sy.global = true ∧ sy.pos = (stringAdd c.strings x).2 := by
      refine .inr ?_
      have : lookup x (addGlobal x c).symstack = FMap.get (Parser.setGlobal x (stringAdd c.strings x).2 b') x := by
        show lookup x (Parser.onBase _ c.symstack) = _
        rw [e1]
        exact get_onBase (by rw [← e1]; exact e)
      rw [this]
      unfold Parser.setGlobal
      rw [FMap.get_set_self]
      exact ⟨_, rfl, rfl, rfl⟩
    have e3 : ∃ sy : Sym, lookup x (addGlobal x c).symstack = some sy ∧ sy.global = true ∧ sy.pos = (stringAdd c.strings x).2 := by
      rcases e2 with e2 | e2
      · exact ⟨_, e2, rfl, rfl⟩
      · exact e2
    obtain ⟨sy, k1, k2, k3⟩ := e3
    rw [k1]
    refine ⟨k2, ?_⟩
    show FMap.get (stringAdd c.strings x).1 x = some sy.pos
    rw [k3]
    exact get_add _ _

theorem valueOf_in {env : List (Bytes × Obj)} (hn : (env.map (·.1)).Nodup) {i : Nat} {x : Bytes} {v : Obj} (h : env[i]? = some (x, v)) : Lang.valueOf x env = some v := by
  induction env generalizing i with
  | nil => simp at h
  | cons e env ih =>
    rw [List.map_cons, List.nodup_cons] at hn
    show (if e.1 = x then some e.2 else Lang.valueOf x env) = _
    cases i with
    | zero =>
      rw [List.getElem?_cons_zero, Option.some.injEq] at h
      subst h
      rw [if_pos rfl]
    | succ i =>
      rw [List.getElem?_cons_succ] at h
      rw [if_neg]
      · exact ih hn.2 h
      · rintro rfl
        exact hn.1 (List.mem_map.mpr ⟨_, List.mem_of_getElem? h, rfl⟩)

theorem valueOf_out {env : List (Bytes × Obj)} {x : Bytes} (h : x ∉ env.map (·.1)) : Lang.valueOf x env = none := by
  induction env with
  | nil => rfl
  | cons e env ih =>
    rw [List.map_cons, List.mem_cons, not_or] at h
    show (if e.1 = x then some e.2 else Lang.valueOf x env) = _
    rw [if_neg (Ne.symm h.1), ih h.2]

theorem mem_env {env : List (Bytes × Obj)} {x : Bytes} (h : x ∈ env.map (·.1)) : ∃ (i : Nat) (v : Obj), env[i]? = some (x, v) ∧ (env.map (·.1))[i]? = some x := by
  obtain ⟨e, he, rfl⟩ := List.mem_map.mp h
  obtain ⟨i, hi⟩ := List.mem_iff_getElem?.mp he
  exact ⟨i, e.2, hi, by rw [List.getElem?_map, hi]; rfl⟩

theorem assignTo_set {env : List (Bytes × Obj)} (hn : (env.map (·.1)).Nodup) {i : Nat} {x : Bytes} {v w : Obj} (h : env[i]? = some (x, w)) :
    Lang.assignTo x v env = env.set i (x, v) := by
  unfold Lang.assignTo
  induction env generalizing i with
  | nil => simp at h
  | cons e env ih =>
    rw [List.map_cons, List.nodup_cons] at hn
    cases i with
    | zero =>
      rw [List.getElem?_cons_zero, Option.some.injEq] at h
      subst h
      rw [List.map_cons, List.set_cons_zero, if_pos rfl]
      congr 1
      refine (List.map_congr_left fun e he => ?_).trans (List.map_id _)
      rw [if_neg]
      · rfl
      · intro hx
        exact hn.1 (List.mem_map.mpr ⟨e, he, hx⟩)
    | succ i =>
      rw [List.getElem?_cons_succ] at h
      rw [List.map_cons, List.set_cons_succ, ih hn.2 h, if_neg]
      rintro rfl
      exact hn.1 (List.mem_map.mpr ⟨_, List.mem_of_getElem? h, rfl⟩)

/-! ### Claims -/

/-- The outcome `o` of a compilation lies between `p` and `q`. -/
structure At (K : Ctx) (o : Comp.Out) (p q : Nat) : Prop where
  sub : Sub o.cs.strings K.strings
  placed : Placed K o.news
  code : CodeAt K p o.code q
  lt : q < K.code.length

/-- The code of a phrase leaves its values on the stack and the machine in the state after the phrase. -/
def Val (K : Ctx) (n : Nat) (run : Ast → Lang.Ev (List Obj)) (a : Ast) : Prop :=
  ∀ {c : CS} {o : Comp.Out} {p q : Nat} {ws : List Obj} {s : St} {vm vm0 : VM} {ρ0 : List Nat}, comp a .val c = some o → At K o p q → Tabs c s.scope.shape →
    Pt K vm0 ρ0 p ws s vm → Sim K n (RetOf K vm0 ρ0) (eval K.host n run a false) s vm (fun vs s' vm' => Pt K vm0 ρ0 q (vs.reverse ++ ws) s' vm')

/-- The code of a function to be called leaves one more object below it. -/
def Callee (K : Ctx) (n : Nat) (run : Ast → Lang.Ev (List Obj)) (a : Ast) : Prop :=
  ∀ {c : CS} {o : Comp.Out} {p q : Nat} {ws : List Obj} {s : St} {vm vm0 : VM} {ρ0 : List Nat}, comp a .callee c = some o → At K o p q → Tabs c s.scope.shape →
    Pt K vm0 ρ0 p ws s vm → Sim K n (RetOf K vm0 ρ0) (eval K.host n run a false) s vm (fun vs s' vm' => ∃ w, Pt K vm0 ρ0 q (vs.reverse ++ w :: ws) s' vm')

/-- What the code of a reference to be assigned to leaves on the stack. -/
def places (a : Ast) (c : CS) (vs : List Obj) : List Obj :=
  match a with
  | .id x => if (symOf x c).global then [.str 0 x] else []
  | _ => vs.reverse

/-- The code of a reference to be assigned to leaves its place on the stack. -/
def Lval (K : Ctx) (n : Nat) (run : Ast → Lang.Ev (List Obj)) (a : Ast) : Prop :=
  ∀ {c : CS} {o : Comp.Out} {p q : Nat} {ws : List Obj} {s : St} {vm vm0 : VM} {ρ0 : List Nat}, comp a .lval c = some o → At K o p q → Tabs c s.scope.shape →
    Pt K vm0 ρ0 p ws s vm → Sim K n (RetOf K vm0 ρ0) (eval K.host n run a true) s vm (fun vs s' vm' => Pt K vm0 ρ0 q (places a c vs ++ ws) s' vm')

section
variable {K : Ctx} (g : Good K) {n : Nat} {run : Ast → Lang.Ev (List Obj)}

theorem use_val {a : Ast} (H : Val K n run a) {c : CS} {o : Comp.Out} {p q : Nat} {ws : List Obj} {s : St} {vm vm0 : VM} {ρ0 : List Nat} (hc : comp a .val c = some o)
    (ha : At K o p q) (ht : Tabs c s.scope.shape) (h : Pt K vm0 ρ0 p ws s vm) :
    Sim K n (RetOf K vm0 ρ0) (eval K.host n run a false) s vm (fun vs s' vm' => Pt K vm0 ρ0 q (vs.reverse ++ ws) s' vm' ∧ Tabs o.cs s'.scope.shape) :=
  (H hc ha ht h).mono fun vs s' vm' e k => ⟨k, by rw [Lang.eval_adds _ _ _ _ _ _ _ _ e]; exact comp_tabs a .val _ _ _ hc ht⟩

theorem sim_one {R : Obj → St → VM → Prop} {a : Ast} {pl : Bool} {s : St} {vm : VM} {Q : Obj → St → VM → Prop}
    (h : Sim K n R (eval K.host n run a pl) s vm (fun vs s' vm' => ∀ v, vs = [v] → s'.scope.shape = s.scope.shape.ext (decls a) → decls a = [] → Q v s' vm')) :
    Sim K n R (one a (eval K.host n run a pl)) s vm Q := by
  unfold one
  by_cases hd : decls a = []
  · rw [if_pos hd]
    refine h.bind fun vs s' vm' e k => ?_
    have hs := Lang.eval_adds _ _ _ _ _ _ _ _ e
    match vs with
    | [] => exact Sim.of_odd rfl
    | [v] => exact Sim.pure (k v rfl hs hd)
    | _ :: _ :: _ => exact Sim.of_odd rfl
  · rw [if_neg hd]
    exact Sim.of_odd rfl

/-- The value of an expression. -/
theorem use_one {a : Ast} (H : Val K n run a) {c : CS} {o : Comp.Out} {p q : Nat} {ws : List Obj} {s : St} {vm vm0 : VM} {ρ0 : List Nat} (hc : comp a .val c = some o)
    (ha : At K o p q) (ht : Tabs c s.scope.shape) (h : Pt K vm0 ρ0 p ws s vm) :
    Sim K n (RetOf K vm0 ρ0) (one a (eval K.host n run a false)) s vm
      (fun v s' vm' => Pt K vm0 ρ0 q (v :: ws) s' vm' ∧ Tabs o.cs s'.scope.shape ∧ s'.scope.shape = s.scope.shape) := by
  refine sim_one ((use_val H hc ha ht h).mono ?_)
  rintro vs s' vm' e ⟨k1, k2⟩ v rfl hs hd
  rw [hd, Shape.ext_nil] at hs
  exact ⟨k1, k2, hs⟩

/-- The function to be called. -/
theorem use_callee {a : Ast} (H : Callee K n run a) {c : CS} {o : Comp.Out} {p q : Nat} {ws : List Obj} {s : St} {vm vm0 : VM} {ρ0 : List Nat} (hc : comp a .callee c = some o)
    (ha : At K o p q) (ht : Tabs c s.scope.shape) (h : Pt K vm0 ρ0 p ws s vm) :
    Sim K n (RetOf K vm0 ρ0) (one a (eval K.host n run a false)) s vm (fun v s' vm' => ∃ w, Pt K vm0 ρ0 q (v :: w :: ws) s' vm' ∧ Tabs o.cs s'.scope.shape) := by
  refine sim_one ((H hc ha ht h).mono ?_)
  rintro vs s' vm' e ⟨w, k1⟩ v rfl hs hd
  refine ⟨w, k1, ?_⟩
  rw [hs]
  exact comp_tabs a .callee _ _ _ hc ht

/-- A statement. -/
theorem use_none {a : Ast} (H : Val K n run a) {c : CS} {o : Comp.Out} {p q : Nat} {ws : List Obj} {s : St} {vm vm0 : VM} {ρ0 : List Nat} (hc : comp a .val c = some o)
    (ha : At K o p q) (ht : Tabs c s.scope.shape) (h : Pt K vm0 ρ0 p ws s vm) :
    Sim K n (RetOf K vm0 ρ0) (noValue (eval K.host n run a false)) s vm
      (fun _ s' vm' => Pt K vm0 ρ0 q ws s' vm' ∧ Tabs o.cs s'.scope.shape ∧ s'.scope.shape = s.scope.shape.ext (decls a)) := by
  unfold noValue
  refine (use_val H hc ha ht h).bind ?_
  rintro vs s' vm' e ⟨k1, k2⟩
  have hs := Lang.eval_adds _ _ _ _ _ _ _ _ e
  match vs with
  | [] => exact Sim.pure ⟨k1, k2, hs⟩
  | _ :: _ => exact Sim.of_odd rfl

/-! ### Expressions -/

include g

theorem val_bin {o : Bin} {a b : Ast} (ha : Val K n run a) (hb : Val K n run b) : Val K n run (.bin o a b) := by
  intro c r p q ws s vm vm0 ρ0 h hat ht hp
  obtain ⟨x, y, h1, h2, rfl⟩ := Comp.bin_some h
  obtain ⟨r2, k1, k2⟩ := codeAt_append.mp hat.code
  obtain ⟨r1, k3, k4⟩ := codeAt_append.mp k1
  rw [codeAt_one] at k2
  have l1 := k4.le
  have l2 := k2.le
  have lt := hat.lt
  simp only [eval]
  refine Sim.bind (use_one ha h1 ⟨(comp_grows b .val _ _ h2).trans hat.sub, hat.placed.left, k3, by omega⟩ ht hp) fun u s1 vm1 _ ⟨p1, t1, _⟩ => ?_
  refine Sim.bind (use_one hb h2 ⟨hat.sub, hat.placed.right, k4, by omega⟩ t1 p1) fun v s2 vm2 _ ⟨p2, _, _⟩ => ?_
  exact Sim.bind (pt_bin g p2 k2 lt) fun w s3 vm3 _ p3 => Sim.pure p3

theorem val_un {o : Un} {a : Ast} (ha : Val K n run a) : Val K n run (.un o a) := by
  intro c r p q ws s vm vm0 ρ0 h hat ht hp
  obtain ⟨x, h1, rfl⟩ := Comp.un_some h
  obtain ⟨r1, k1, k2⟩ := codeAt_append.mp hat.code
  rw [codeAt_one] at k2
  have l2 := k2.le
  have lt := hat.lt
  simp only [eval]
  refine Sim.bind (use_one ha h1 ⟨hat.sub, hat.placed, k1, by omega⟩ ht hp) fun u s1 vm1 _ ⟨p1, _, _⟩ => ?_
  exact Sim.bind (pt_un g p1 k2 lt) fun w s3 vm3 _ p3 => Sim.pure p3

theorem val_nil : Val K n run .nil := by
  intro c r p q ws s vm vm0 ρ0 h hat ht hp
  cases h
  obtain ⟨vm', e, k⟩ := pt_nil g hp (codeAt_one.mp hat.code) hat.lt
  exact Sim.step e (Sim.pure k)

theorem val_num {t : Bytes} : Val K n run (.num t) := by
  intro c r p q ws s vm vm0 ρ0 h hat ht hp
  cases h
  simp only [eval]
  exact Sim.bind (pt_const g hp (codeAt_one.mp hat.code) hat.lt) fun w s3 vm3 _ p3 => Sim.pure p3

theorem val_str {x : Bytes} : Val K n run (.str x) := by
  intro c r p q ws s vm vm0 ρ0 h hat ht hp
  cases h
  obtain ⟨vm', e, k⟩ := pt_str g hp (codeAt_one.mp hat.code) (hat.sub _ _ (get_add _ _)) hat.lt
  exact Sim.step e (Sim.pure k)

theorem val_tnew : Val K n run .tnew := by
  intro c r p q ws s vm vm0 ρ0 h hat ht hp
  cases h
  obtain ⟨vm', e, k⟩ := pt_table g hp (codeAt_one.mp hat.code) hat.lt
  exact (Sim.of_ok (a := [Obj.tab s.store.length]) (s' := withNew (.tab []) s) rfl ⟨1, _, stepN_one e, k⟩)

theorem val_lam {ps : List Bytes} {b : Ast} : Val K n run (.lam ps b) := by
  intro c r p q ws s vm vm0 ρ0 h hat ht hp
  obtain ⟨y, h1, rfl⟩ := Comp.lam_some h
  have hpl := hat.placed
  have hfun : ∀ xs : List Bytes, Loc (Comp.scope { c with labels := c.labels + 1 }).symstack xs (Comp.scope { c with labels := c.labels + 1 }).strings → (xs ++ ps).Nodup →
      FunAt K (K.pos c.labels : Int) xs ps b := by
    intro xs hl hn
    obtain ⟨e, he, hle⟩ := hpl _ (List.mem_cons_self ..)
    exact ⟨_, y, K.pos c.labels, e, Comp.loc_params ps hl hn, h1, hat.sub, fun d hd => hpl d (List.mem_cons_of_mem _ hd), rfl, he, hle⟩
  simp only [eval]
  refine Sim.bind (pt_lam g hp (codeAt_one.mp hat.code) hat.lt (ps := ps) (b := b) ?_ ?_) fun w s3 vm3 _ p3 => Sim.pure p3
  · intro hs hn
    refine hfun _ (Comp.loc_scope_top ?_) hn
    rw [hs] at ht
    exact ht
  · intro env hs hn
    refine hfun _ (Comp.loc_scope ?_) hn
    rw [hs] at ht
    exact ht

theorem sim_key {key : Lang.Key} {R : Obj → St → VM → Prop} {c : CS} {o : Comp.Out} {p q : Nat} {ws : List Obj} {s : St} {vm vm0 : VM} {ρ0 : List Nat} (hc : keyC key c = some o)
    (hat : At K o p q) (h : Pt K vm0 ρ0 p ws s vm) : Sim K n R (Lang.keyVal K.host key) s vm (fun v s' vm' => Pt K vm0 ρ0 q (v :: ws) s' vm' ∧ s' = s) := by
  cases key with
  | name x =>
    cases hc
    obtain ⟨vm', e, k⟩ := pt_str g h (codeAt_one.mp hat.code) (hat.sub _ _ (get_add _ _)) hat.lt
    exact Sim.step e (Sim.pure ⟨k, rfl⟩)
  | num t =>
    cases hc
    refine (pt_const g h (codeAt_one.mp hat.code) hat.lt).mono fun v s' vm' e k => ⟨k, ?_⟩
    have e : Lang.const K.host t s = .ok v s' := e
    unfold Lang.const at e
    cases hv : Lang.constVal K.host t with
    | some w => rw [hv] at e; cases e; rfl
    | none => rw [hv] at e; cases e

theorem val_tset {t a : Ast} {key : Lang.Key} (ht' : Val K n run t) (ha : Val K n run a) : Val K n run (.tset t key a) := by
  intro c r p q ws s vm vm0 ρ0 h hat ht hp
  obtain ⟨u, x, y, h1, h2, h3, rfl⟩ := Comp.tset_some h
  obtain ⟨r4, k1, j4⟩ := codeAt_append.mp hat.code
  obtain ⟨r3, k1, j3⟩ := codeAt_append.mp k1
  obtain ⟨r2, k1, j2⟩ := codeAt_append.mp k1
  obtain ⟨r1, j0, j1⟩ := codeAt_append.mp k1
  rw [codeAt_one] at j4 j1
  have l1 := j1.le
  have l2 := j2.le
  have l3 := j3.le
  have l4 := j4.le
  have lt := hat.lt
  have s3 : Sub y.cs.strings K.strings := hat.sub
  have s2 : Sub x.cs.strings K.strings := (comp_grows a .val _ _ h3).trans s3
  have s1 : Sub u.cs.strings K.strings := (Comp.grows_key key _ _ h2).trans s2
  simp only [eval]
  refine Sim.bind (use_one ht' h1 ⟨s1, hat.placed.left.left, j0, by omega⟩ ht hp) fun t' st1 vm1 _ ⟨p1, t1, _⟩ => ?_
  obtain ⟨vm2, e2, p2⟩ := pt_dup g p1 j1 (by omega)
  refine Sim.step e2 ?_
  refine Sim.bind (sim_key g h2 ⟨s2, hat.placed.left.right, j2, by omega⟩ p2) ?_
  rintro k st2 vm3 _ ⟨p3, rfl⟩
  have t3 : Tabs x.cs st2.scope.shape := by
    have := (stacks_key key).tabbed _ _ _ h2 t1
    rwa [Shape.ext_nil] at this
  refine Sim.bind (use_one ha h3 ⟨s3, hat.placed.right, j3, by omega⟩ t3 p3) fun v st3 vm4 _ ⟨p4, _, _⟩ => ?_
  exact Sim.bind (pt_tput g p4 j4 lt) fun _ st4 vm5 _ p5 => Sim.pure p5

/-- A variable. -/
theorem sim_id {R : Obj → St → VM → Prop} {x : Bytes} {c : CS} {p q : Nat} {ws : List Obj} {s : St} {vm vm0 : VM} {ρ0 : List Nat} (hs : Sub (known x c).strings K.strings)
    (hcode : CodeAt K p (loadOps (symOf x c).pos (symOf x c).global false) q) (hq : q < K.code.length) (ht : Tabs c s.scope.shape) (h : Pt K vm0 ρ0 p ws s vm) :
    Sim K n R (Lang.getVar x) s vm (fun v s' vm' => Pt K vm0 ρ0 q (v :: ws) s' vm') := by
  have hglob : x ∉ Shape.names s.scope.shape → ∃ k vm', K.stepN k vm = .ok vm' ∧ Pt K vm0 ρ0 q (Lang.globalVal x s :: ws) s vm' := by
    intro hx
    obtain ⟨g1, g2⟩ := sym_out ht hx
    rw [g1] at hcode
    have hcode : CodeAt K p [.num 37 (symOf x c).pos, .op 28] q := hcode
    obtain ⟨r1, j1, j2⟩ := hcode
    replace j2 := codeAt_one.mp j2
    have l2 := j2.le
    obtain ⟨vm1, e1, p1⟩ := pt_str g h j1 (hs _ _ g2) (by omega)
    obtain ⟨vm2, e2, p2⟩ := pt_gload g p1 j2 (hs _ _ g2) hq
    exact ⟨1 + 1, vm2, stepN_add (stepN_one e1) (stepN_one e2), p2⟩
  cases hsc : s.scope with
  | top =>
    refine Sim.of_ok (a := Lang.globalVal x s) (s' := s) ?_ (hglob (by rw [hsc]; simp [Shape.names, Lang.Scope.shape]))
    unfold Lang.getVar
    rw [hsc]
  | inner =>
    refine Sim.of_ok (a := Lang.globalVal x s) (s' := s) ?_ (hglob (by rw [hsc]; simp [Shape.names, Lang.Scope.shape]))
    unfold Lang.getVar
    rw [hsc]
  | fn env =>
    have hl : Loc c.symstack (env.map (·.1)) c.strings := by rw [hsc] at ht; exact ht
    by_cases hx : x ∈ env.map (·.1)
    · obtain ⟨i, v, hi, hi'⟩ := mem_env hx
      refine Sim.of_ok (a := v) (s' := s) ?_ ?_
      · unfold Lang.getVar
        rw [hsc]
        simp only
        rw [valueOf_in hl.nodup hi]
        rfl
      · rw [(sym_in hl hi').2] at hcode
        have hcode : CodeAt K p [.num 41 (i : Int)] q := by
          unfold loadOps at hcode
          rw [if_neg (by simp), if_pos (by simp)] at hcode
          exact hcode
        obtain ⟨vm1, e1, p1⟩ := pt_lload g h (codeAt_one.mp hcode) hsc hi hq
        exact ⟨1, vm1, stepN_one e1, p1⟩
    · refine Sim.of_ok (a := Lang.globalVal x s) (s' := s) ?_ (hglob (by rw [hsc]; exact hx))
      unfold Lang.getVar
      rw [hsc]
      simp only
      rw [valueOf_out hx]
      rfl

omit g in
theorem loadOps_callee {i : Int} {b : Bool} (h : b = true ∨ 0 ≤ i) : loadOps i b true = .op 2 :: loadOps i b false := by
  unfold loadOps
  cases b with
  | true => rfl
  | false =>
    rcases h with h | h
    · cases h
    · simp [h]

theorem val_id {x : Bytes} : Val K n run (.id x) := by
  intro c r p q ws s vm vm0 ρ0 h hat ht hp
  cases h
  simp only [eval, Bool.false_eq_true, if_false]
  exact Sim.bind (sim_id g hat.sub hat.code hat.lt ht hp) fun v s1 vm1 _ p1 => Sim.pure p1

theorem callee_id {x : Bytes} : Callee K n run (.id x) := by
  intro c r p q ws s vm vm0 ρ0 h hat ht hp
  cases h
  have hcode : CodeAt K p (loadOps (symOf x c).pos (symOf x c).global true) q := hat.code
  rw [loadOps_callee (.inr (by omega))] at hcode
  obtain ⟨r1, j1, j2⟩ := hcode
  have l2 := j2.le
  have lt := hat.lt
  obtain ⟨vm1, e1, p1⟩ := pt_nil g hp j1 (by omega)
  simp only [eval, Bool.false_eq_true, if_false]
  exact Sim.step e1 (Sim.bind (sim_id g hat.sub j2 lt ht p1) fun v s1 vm1 _ p1 => Sim.pure ⟨_, p1⟩)

theorem lval_id {x : Bytes} : Lval K n run (.id x) := by
  intro c r p q ws s vm vm0 ρ0 h hat ht hp
  cases h
  have hcode : CodeAt K p (if (symOf x c).global then [.num 37 (symOf x c).pos] else []) q := hat.code
  simp only [eval, if_true]
  cases hg : (symOf x c).global with
  | true =>
    rw [hg] at hcode
    have hx : x ∉ Shape.names s.scope.shape := by
      intro hx
      obtain ⟨i, hi⟩ := List.mem_iff_getElem?.mp hx
      have : ∀ sh, Tabs c sh → (Shape.names sh)[i]? = some x → False := by
        intro sh ht hi
        cases sh with
        | top => simp [Shape.names] at hi
        | inner xs =>
          rw [(sym_in ht hi).2] at hg
          cases hg
        | fn xs =>
          rw [(sym_in ht hi).2] at hg
          cases hg
      exact this _ ht hi
    obtain ⟨vm1, e1, p1⟩ := pt_str g hp (codeAt_one.mp hcode) (hat.sub _ _ (sym_out ht hx).2) hat.lt
    refine Sim.step e1 (Sim.pure ?_)
    unfold places
    simp only [hg]
    exact p1
  | false =>
    rw [hg] at hcode
    cases hcode
    refine Sim.pure ?_
    unfold places
    simp only [hg]
    exact hp

theorem val_field {r : Ast} {x : Bytes} (hr : Val K n run r) : Val K n run (.field r x) := by
  intro c o p q ws s vm vm0 ρ0 h hat ht hp
  obtain ⟨a, h1, rfl⟩ := Comp.field_some h
  obtain ⟨r2, k1, j2⟩ := codeAt_append.mp hat.code
  obtain ⟨r1, j0, j1⟩ := codeAt_append.mp k1
  replace j2 := codeAt_one.mp j2
  replace j1 := codeAt_one.mp j1
  have l1 := j1.le
  have l2 := j2.le
  have lt := hat.lt
  simp only [eval, Bool.false_eq_true, if_false]
  refine Sim.bind (use_one hr h1 ⟨(sub_add _ _).trans hat.sub, hat.placed, j0, by omega⟩ ht hp) fun t s1 vm1 _ ⟨p1, _, _⟩ => ?_
  obtain ⟨vm2, e2, p2⟩ := pt_str g p1 j1 (hat.sub _ _ (get_add _ _)) (by omega)
  refine Sim.step e2 ?_
  exact Sim.bind (pt_tget g p2 j2 lt) fun v s3 vm3 _ p3 => Sim.pure p3

theorem callee_field {r : Ast} {x : Bytes} (hr : Val K n run r) : Callee K n run (.field r x) := by
  intro c o p q ws s vm vm0 ρ0 h hat ht hp
  obtain ⟨a, h1, rfl⟩ := Comp.field_some h
  obtain ⟨r2, k1, j2⟩ := codeAt_append.mp hat.code
  obtain ⟨r1, j0, j1⟩ := codeAt_append.mp k1
  obtain ⟨r3, j3, j1⟩ := j1
  replace j2 := codeAt_one.mp j2
  replace j1 := codeAt_one.mp j1
  have l1 := j1.le
  have l2 := j2.le
  have l3 := j3.le
  have lt := hat.lt
  simp only [eval, Bool.false_eq_true, if_false]
  refine Sim.bind (use_one hr h1 ⟨(sub_add _ _).trans hat.sub, hat.placed, j0, by omega⟩ ht hp) fun t s1 vm1 _ ⟨p1, _, _⟩ => ?_
  obtain ⟨vm3, e3, p3⟩ := pt_dup g p1 j3 (by omega)
  refine Sim.step e3 ?_
  obtain ⟨vm2, e2, p2⟩ := pt_str g p3 j1 (hat.sub _ _ (get_add _ _)) (by omega)
  refine Sim.step e2 ?_
  exact Sim.bind (pt_tget g p2 j2 lt) fun v s3 vm3 _ p3 => Sim.pure ⟨_, p3⟩

theorem lval_field {r : Ast} {x : Bytes} (hr : Val K n run r) : Lval K n run (.field r x) := by
  intro c o p q ws s vm vm0 ρ0 h hat ht hp
  obtain ⟨a, h1, rfl⟩ := Comp.field_some h
  obtain ⟨r2, k1, j2⟩ := codeAt_append.mp hat.code
  obtain ⟨r1, j0, j1⟩ := codeAt_append.mp k1
  replace j1 := codeAt_one.mp j1
  obtain rfl : q = r2 := j2
  have l1 := j1.le
  have lt := hat.lt
  simp only [eval, if_true]
  refine Sim.bind (use_one hr h1 ⟨(sub_add _ _).trans hat.sub, hat.placed, j0, by omega⟩ ht hp) fun t s1 vm1 _ ⟨p1, _, _⟩ => ?_
  obtain ⟨vm2, e2, p2⟩ := pt_str g p1 j1 (hat.sub _ _ (get_add _ _)) lt
  exact Sim.step e2 (Sim.pure p2)

theorem val_index {r e : Ast} (hr : Val K n run r) (he : Val K n run e) : Val K n run (.index r e) := by
  intro c o p q ws s vm vm0 ρ0 h hat ht hp
  obtain ⟨a, b, h1, h2, rfl⟩ := Comp.index_some h
  obtain ⟨r2, k1, j2⟩ := codeAt_append.mp hat.code
  obtain ⟨r1, j0, j1⟩ := codeAt_append.mp k1
  replace j2 := codeAt_one.mp j2
  have j1 : CodeAt K r1 b.code r2 := j1
  have l1 := j1.le
  have l2 := j2.le
  have lt := hat.lt
  simp only [eval, Bool.false_eq_true, if_false]
  refine Sim.bind (use_one hr h1 ⟨(comp_grows e .val _ _ h2).trans hat.sub, hat.placed.left, j0, by omega⟩ ht hp) fun t s1 vm1 _ ⟨p1, t1, _⟩ => ?_
  refine Sim.bind (use_one he h2 ⟨hat.sub, hat.placed.right, j1, by omega⟩ t1 p1) fun k s2 vm2 _ ⟨p2, _, _⟩ => ?_
  exact Sim.bind (pt_tget g p2 j2 lt) fun v s3 vm3 _ p3 => Sim.pure p3

theorem callee_index {r e : Ast} (hr : Val K n run r) (he : Val K n run e) : Callee K n run (.index r e) := by
  intro c o p q ws s vm vm0 ρ0 h hat ht hp
  obtain ⟨a, b, h1, h2, rfl⟩ := Comp.index_some h
  obtain ⟨r2, k1, j2⟩ := codeAt_append.mp hat.code
  obtain ⟨r1, j0, j1⟩ := codeAt_append.mp k1
  obtain ⟨r3, j3, j1⟩ := j1
  replace j2 := codeAt_one.mp j2
  have j1 : CodeAt K r3 b.code r2 := j1
  have l1 := j1.le
  have l2 := j2.le
  have l3 := j3.le
  have lt := hat.lt
  simp only [eval, Bool.false_eq_true, if_false]
  refine Sim.bind (use_one hr h1 ⟨(comp_grows e .val _ _ h2).trans hat.sub, hat.placed.left, j0, by omega⟩ ht hp) fun t s1 vm1 _ ⟨p1, t1, _⟩ => ?_
  obtain ⟨vm3, e3, p3⟩ := pt_dup g p1 j3 (by omega)
  refine Sim.step e3 ?_
  refine Sim.bind (use_one he h2 ⟨hat.sub, hat.placed.right, j1, by omega⟩ t1 p3) fun k s2 vm2 _ ⟨p2, _, _⟩ => ?_
  exact Sim.bind (pt_tget g p2 j2 lt) fun v s3 vm3 _ p3 => Sim.pure ⟨_, p3⟩

theorem lval_index {r e : Ast} (hr : Val K n run r) (he : Val K n run e) : Lval K n run (.index r e) := by
  intro c o p q ws s vm vm0 ρ0 h hat ht hp
  obtain ⟨a, b, h1, h2, rfl⟩ := Comp.index_some h
  obtain ⟨r2, k1, j2⟩ := codeAt_append.mp hat.code
  obtain ⟨r1, j0, j1⟩ := codeAt_append.mp k1
  obtain rfl : q = r2 := j2
  have j1 : CodeAt K r1 b.code q := j1
  have l1 := j1.le
  have lt := hat.lt
  simp only [eval, if_true]
  refine Sim.bind (use_one hr h1 ⟨(comp_grows e .val _ _ h2).trans hat.sub, hat.placed.left, j0, by omega⟩ ht hp) fun t s1 vm1 _ ⟨p1, t1, _⟩ => ?_
  exact Sim.bind (use_one he h2 ⟨hat.sub, hat.placed.right, j1, lt⟩ t1 p1) fun k s2 vm2 _ ⟨p2, _, _⟩ => Sim.pure p2

omit g in
theorem args_length {as : Ast} (h : Lang.isArgs as = true) : ∀ {s s' : St} {vs : List Obj}, eval K.host n run as false s = .ok vs s' → vs.length = nargs as := by
  induction as with
  | noArg => intro s s' vs e; cases e; rfl
  | arg as a ih _ =>
    intro s s' vs e
    simp only [eval] at e
    obtain ⟨vs1, s1, e1, e2⟩ := Lang.bind_ok e
    obtain ⟨v, s2, e3, e4⟩ := Lang.bind_ok e2
    cases e4
    rw [List.length_append, ih h e1]
    rfl
  | _ => cases h

theorem sim_call (hrun : RunOk K n run) {r as : Ast} {c : CS} {a b : Comp.Out} {p q : Nat} {ws : List Obj} {s : St} {vm vm0 : VM} {ρ0 : List Nat} (hr : Lang.isCallee r = true → Callee K n run r) (has : Val K n run as)
    (h1 : comp r .callee c = some a) (h2 : comp as .val a.cs = some b) (hs : Sub b.cs.strings K.strings) (hpl : Placed K (a.news ++ b.news))
    (hcode : CodeAt K p (a.code ++ b.code ++ [.num 36 (nargs as), .op 33]) q) (lt : q < K.code.length) (ht : Tabs c s.scope.shape) (hp : Pt K vm0 ρ0 p ws s vm) :
    Sim K n (RetOf K vm0 ρ0) (eval K.host n run (.call r as) false) s vm (fun vs s' vm' => Pt K vm0 ρ0 q (vs.reverse ++ ws) s' vm') := by
  obtain ⟨r2, k1, j2⟩ := codeAt_append.mp hcode
  obtain ⟨r1, j0, j1⟩ := codeAt_append.mp k1
  obtain ⟨r3, j2, j3⟩ := j2
  replace j3 := codeAt_one.mp j3
  have l1 := j1.le
  have l2 := j2.le
  have l3 := j3.le
  simp only [eval]
  by_cases hw : (Lang.isCallee r && Lang.isArgs as) = true
  · rw [if_pos hw]
    rw [Bool.and_eq_true] at hw
    refine Sim.bind (use_callee (hr hw.1) h1 ⟨(comp_grows as .val _ _ h2).trans hs, hpl.left, j0, by omega⟩ ht hp) ?_
    rintro f s1 vm1 _ ⟨w, p1, t1⟩
    refine Sim.bind (use_val has h2 ⟨hs, hpl.right, j1, by omega⟩ t1 p1) ?_
    rintro vs s2 vm2 e2 ⟨p2, _⟩
    have hl := args_length hw.2 e2
    by_cases hlim : Lang.limit ≤ vs.length
    · refine Sim.of_odd (bind_odd ?_)
      unfold Lang.apply
      rw [if_pos hlim]
      rfl
    · have hlim' : vs.length < 2147483647 := Nat.lt_of_not_le hlim
      rw [← hl] at j2
      obtain ⟨vm3, e3, p3⟩ := pt_int g p2 j2 (by omega) (by omega)
      refine Sim.step e3 ?_
      exact Sim.bind (pt_call g hrun p3 j3 lt) fun v s4 vm4 _ p4 => Sim.pure p4
  · rw [if_neg hw]
    exact Sim.of_odd rfl

theorem val_call (hrun : RunOk K n run) {r as : Ast} (hr : Lang.isCallee r = true → Callee K n run r) (has : Val K n run as) : Val K n run (.call r as) := by
  intro c o p q ws s vm vm0 ρ0 h hat ht hp
  obtain ⟨a, b, h1, h2, rfl⟩ := Comp.call_some h
  exact sim_call g hrun hr has h1 h2 hat.sub hat.placed hat.code hat.lt ht hp

theorem callee_call (hrun : RunOk K n run) {r as : Ast} (hr : Lang.isCallee r = true → Callee K n run r) (has : Val K n run as) : Callee K n run (.call r as) := by
  intro c o p q ws s vm vm0 ρ0 h hat ht hp
  obtain ⟨a, b, h1, h2, rfl⟩ := Comp.call_some h
  have hcode : CodeAt K p (.op 2 :: (a.code ++ b.code ++ [.num 36 (nargs as), .op 33])) q := by
    have := hat.code
    simpa using this
  obtain ⟨r1, j1, j2⟩ := hcode
  have l2 := j2.le
  have lt := hat.lt
  obtain ⟨vm1, e1, p1⟩ := pt_nil g hp j1 (by omega)
  exact Sim.step e1 ((sim_call g hrun hr has h1 h2 hat.sub hat.placed j2 lt ht p1).mono fun vs s' vm' _ k => ⟨_, k⟩)

theorem val_noArg : Val K n run .noArg := by
  intro c o p q ws s vm vm0 ρ0 h hat ht hp
  cases h
  obtain rfl : q = p := hat.code
  exact Sim.pure hp

theorem val_arg {as a : Ast} (has : Val K n run as) (ha : Val K n run a) : Val K n run (.arg as a) := by
  intro c o p q ws s vm vm0 ρ0 h hat ht hp
  obtain ⟨x, y, h1, h2, rfl⟩ := Comp.seq_some h
  obtain ⟨r1, j0, j1⟩ := codeAt_append.mp hat.code
  have l1 := j1.le
  have lt := hat.lt
  simp only [eval]
  refine Sim.bind (use_val has h1 ⟨(comp_grows a .val _ _ h2).trans hat.sub, hat.placed.left, j0, by omega⟩ ht hp) fun vs s1 vm1 _ ⟨p1, t1⟩ => ?_
  refine Sim.bind (use_one ha h2 ⟨hat.sub, hat.placed.right, j1, lt⟩ t1 p1) fun v s2 vm2 _ ⟨p2, _, _⟩ => Sim.pure ?_
  rw [List.reverse_append]
  exact p2

end

end Buzz.Sim
