import Verif.Props.Compiler

/-
Single phrases of programs: properties C42 (expressions) and C43 (statements).  The specification consists of the grammar, the meaning
of phrases and the relations below.
-/
namespace Buzz.Props

open Buzz.Msg Buzz.Lex Buzz.Debug Buzz.Asm Buzz.Parser Buzz.Comp Buzz.VM Buzz.Heap Buzz.Sim Buzz.Link
open Buzz.Lang (Ast Thing Scope Shape St T2 Syn complete Legal globalVal)

/-! ### Where compiled code lies and what the machine does there -/

/-- What is assumed about the surroundings; the functions of the host do not fill the table of strings, and the machine may be in any function or none. -/
structure Fine (K : Ctx) : Prop extends Good K where
  tight : K.loose = false
  floor : K.floor = 0

/-- What the compiler has emitted from `p` to `p'` lies in the bytecode from `l` to `r`, its functions at their labels. -/
structure Lies (K : Ctx) (p p' : P) (l r : Nat) : Prop where
  strings : Sub p'.strings K.strings
  lines : CodeAt K l ((p'.code.drop p.code.length).map Prod.fst) r
  functions : Placed K ((p'.chunks.drop p.chunks.length).map plain)
  inside : r < K.code.length

/-- The machine is at `l`, in the state `s` of the program. -/
structure Stands (K : Ctx) (ρ : List Nat) (s : St) (vm : VM) (l : Nat) : Prop where
  core : Core K ρ s vm
  scope : Sc K ρ vm s.scope
  pc : vm.pc = (l : Int)

/-- From `vm` the machine gets to `vm'`. -/
def Gets (K : Ctx) (vm vm' : VM) : Prop := ∃ k, stepN K.E K.F k vm = .ok vm'

/-- Nothing has changed outside the phrase: the callers' stacks and variables are the same, and old objects have their values. -/
structure Kept (ρ : List Nat) (vm : VM) (ρ' : List Nat) (vm' : VM) : Prop where
  rest : vm'.rest = vm.rest
  callers : vm'.frames.tail = vm.frames.tail
  depth : vm'.frames.length = vm.frames.length
  values : ∀ a v, (a ∈ vm.stack ∨ ∃ S ∈ vm.rest, a ∈ S) → Rep ρ vm.heap v a → Rep ρ' vm'.heap v a

/-- The machine has returned from its function to the caller, with the value `v`. -/
structure Returned (K : Ctx) (ρ : List Nat) (vm : VM) (v : Obj) (s : St) (ρ' : List Nat) (vm' : VM) : Prop where
  core : Core K ρ' s vm'
  frames : vm'.frames = vm.frames.tail
  stack : ∃ ra S x, ∃ n : Nat, vm.rest = (ra :: S) :: vm'.rest ∧ Holds vm.heap ra (.atom (.int n)) ∧ vm'.pc = n ∧ vm'.stack = x :: S ∧ Rep ρ' vm'.heap v x

/-! ### Lemmas -/

theorem placed_of {K : Ctx} {p p' : P} {o : Comp.Out} {l r : Nat} (g : Go p p' o) (h : Lies K p p' l r) : At K o l r where
  sub := by
    have := h.strings
    rw [← g.cs]
    exact this
  placed := by
    have := h.functions
    rw [List.map_drop, g.chunks] at this
    simpa using this
  code := by
    have := h.lines
    rw [List.map_drop, g.code] at this
    simpa using this
  lt := h.inside

theorem exec_adds {H : Lang.Host} {n : Nat} {a : Ast} {s s' : St} {vs : List Obj} (hx : Lang.exec H n a s = .ok vs s') : s'.scope.shape = s.scope.shape.ext (Lang.decls a) := by
  cases n with
  | zero => exact Lang.eval_adds _ _ _ _ _ _ _ _ hx
  | succ n => exact Lang.eval_adds _ _ _ _ _ _ _ _ hx

theorem tabs_ne {c : CS} {sh : Shape} (h : Tabs c sh) : c.symstack ≠ [] := by
  cases sh with
  | top =>
    obtain ⟨b, h, _⟩ := h
    rw [h]
    simp
  | inner xs =>
    obtain ⟨ts, b, h, _⟩ := Loc.split h
    rw [h]
    simp
  | fn xs =>
    obtain ⟨ts, b, h, _⟩ := Loc.split h
    rw [h]
    simp

/-- What comes after a phrase. -/
theorem phrase_runs {K : Ctx} (g : Fine K) {a : Ast} {p p' : P} {o : Comp.Out} {l r : Nat} (hc : comp a .val (cs p) = some o) (hg : Go p p' o) (hl : Lies K p p' l r) {ρ : List Nat} {s : St}
    {vm : VM} (hs : Stands K ρ s vm l) (ht : Tabs (cs p) s.scope.shape) (n : Nat) :
    match Lang.exec K.host n a s with
    | .ok vs s' => ∃ ρ' vm' as, Gets K vm vm' ∧ Stands K ρ' s' vm' r ∧ Kept ρ vm ρ' vm' ∧ vm'.stack = as ++ vm.stack ∧ List.Forall₂ (fun v x => Rep ρ' vm'.heap v x) vs.reverse as ∧
        Tabs (cs p') s'.scope.shape
    | .ret v s' => ∃ ρ' vm', Gets K vm vm' ∧ Returned K ρ vm v s' ρ' vm'
    | .err e => ∃ vm', Gets K vm vm' ∧ vm'.state = .error ∧ vm'.error = e
    | .odd => True
    | .time => ∃ k vm', n ≤ k ∧ stepN K.E K.F k vm = .ok vm' ∧ vm'.state = .ready := by
  have h0 : Pt K vm ρ l [] s vm := ⟨ρ, [], hs.core, hs.scope, hs.pc, rfl, .nil, rfl, rfl, rfl, .refl _, List.prefix_refl _, by rw [g.floor]; exact Nat.zero_le _⟩
  have := sim_exec g.toGood n hc (placed_of hg hl) ht h0
  rcases this with this | this
  · have := this.1; rw [g.tight] at this; cases this
  cases hx : Lang.exec K.host n a s with
  | ok vs s' =>
    rw [hx] at this
    obtain ⟨k, vm', h1, ρ', as, h2⟩ := this
    refine ⟨ρ', vm', as, ⟨k, Ctx.stepN_ok h1⟩, ⟨h2.core, h2.sc, h2.pc⟩, ⟨h2.rest, h2.tail, h2.depth, fun b v hb hr => ?_⟩, h2.stack, by simpa using h2.reps, ?_⟩
    · refine hr.evo hs.core.inv.heap h2.evo h2.pre ?_
      rcases hb with hb | ⟨S, hS, hb⟩
      · exact h2.core.inv.stack b (by rw [h2.stack]; exact List.mem_append_right _ hb)
      · exact h2.core.inv.rest S (by rw [h2.rest]; exact hS) b hb
    · rw [hg.cs]
      rw [exec_adds hx]
      exact comp_tabs a .val _ _ _ hc ht
  | ret v s' =>
    rw [hx] at this
    obtain ⟨k, vm', h1, ρ', x, ra, S, rs, h2, h3, h4, h5, h6, h7, h8, h9, h10⟩ := this
    refine ⟨ρ', vm', ⟨k, Ctx.stepN_ok h1⟩, h7, h6, ?_⟩
    have hsc := hs.scope
    have hd := hs.core.inv.depth (by rw [hs.core.ready]; simp)
    cases he : s.scope with
    | fn env =>
      rw [he] at hsc
      obtain ⟨_, _, ra', S', rs', n', k1, k2, _⟩ := hsc
      rw [k1] at h2
      cases h2
      exact ⟨ra, S, x, n', by rw [h4]; exact k1, k2, h3 _ (held_lt hs.core.inv.heap k2) k2, h5, h8⟩
    | top =>
      rw [he] at hsc
      rw [show vm.frames = [] from hsc, h2] at hd
      cases hd
    | inner =>
      rw [he] at hsc
      rw [show vm.frames = [] from hsc, h2] at hd
      cases hd
  | err e =>
    rw [hx] at this
    obtain ⟨k, vm', h1, h2, h3⟩ := this
    exact ⟨vm', ⟨k, Ctx.stepN_ok h1⟩, h2, h3⟩
  | odd => trivial
  | time =>
    rw [hx] at this
    obtain ⟨k, vm', h1, h2, h3⟩ := this
    exact ⟨k, vm', h1, Ctx.stepN_ok h2, h3⟩

/-! ### C42 -/

/-- **C42**, any expression: the compiler takes exactly the expression, and the code emitted for it evaluates it.  Wherever this code lies, on
any stack, a machine in a state of the program ends behind the code with one more value on its stack, the value of the expression, and in the
state in which the evaluation ends; or it stops with the error in which the evaluation ends; or it goes on as the evaluation does. -/
theorem C42_expression (ts : List T2) (a : Ast) (h : Syn .cond ts a) (p : P) (rest : List T2) (hv : View p (ts ++ rest)) (hn : Nxt bCond rest) (sh : Shape) (ht : Tabs (cs p) sh)
    (hl : Legal sh a) :
    ∃ r p', (∃ N, ∀ m ≥ N, parse m .cond p = .ok (some (r, p'))) ∧ View p' rest ∧ Tabs (cs p') sh ∧
      ∀ K : Ctx, Fine K → ∀ l r, Lies K p p' l r → ∀ ρ s vm, s.scope.shape = sh → Stands K ρ s vm l → ∀ n,
        match Lang.exec K.host n a s with
        | .ok vs s' => ∃ v ρ' vm' x, vs = [v] ∧ Gets K vm vm' ∧ Stands K ρ' s' vm' r ∧ vm'.stack = x :: vm.stack ∧ Rep ρ' vm'.heap v x ∧ Kept ρ vm ρ' vm' ∧ s'.scope.shape = sh
        | .ret _ _ => False
        | .err e => ∃ vm', Gets K vm vm' ∧ vm'.state = .error ∧ vm'.error = e
        | .odd => True
        | .time => ∃ k vm', n ≤ k ∧ stepN K.E K.F k vm = .ok vm' ∧ vm'.state = .ready := by
  obtain ⟨o, ho⟩ := ((comp_takes a .val).2 (cs p) sh ht).mpr hl
  have hne : (cs p).symstack ≠ [] := tabs_ne ht
  obtain ⟨r, p', ⟨N, e⟩, hv', hg⟩ := claim h p rest o (fun _ p' => View p' rest ∧ Go p p' o) hv hn hne ho fun r p' h1 h2 => ⟨h1, h2⟩
  have hk := Lang.syn_kind h
  have htp : Tabs (cs p') sh := by
    have := comp_tabs a .val _ _ _ ho ht
    rw [hk.2, Lang.Shape.ext_nil] at this
    rw [hg.cs]
    exact this
  refine ⟨r, p', ⟨N, e⟩, hv', htp, ?_⟩
  rintro K g l r hlies ρ s vm rfl hs n
  have := phrase_runs g ho hg hlies hs ht n
  cases hx : Lang.exec K.host n a s with
  | ok vs s' =>
    rw [hx] at this
    obtain ⟨ρ', vm', as, h1, h2, h3, h4, h5, h6⟩ := this
    obtain ⟨v, rfl⟩ := Lang.exec_expr hk.1 hx
    cases h5 with
    | cons hr hnil =>
      cases hnil
      refine ⟨v, ρ', vm', _, rfl, h1, h2, h4, hr, h3, ?_⟩
      have hsh := exec_adds hx
      rwa [hk.2, Lang.Shape.ext_nil] at hsh
  | ret v s' => exact Lang.exec_noRet (Lang.syn_deep h rfl) _ _ _ hx
  | err e => rw [hx] at this; exact this
  | odd => trivial
  | time => rw [hx] at this; exact this


/-- Expressions of numbers, strings, names and operators. -/
def plainExpr : Ast → Bool
  | .nil | .num _ | .str _ | .id _ => true
  | .bin _ a b => plainExpr a && plainExpr b
  | .un _ a => plainExpr a
  | _ => false

/-- The outcome of a calculation. -/
inductive Calc where
  | value (v : Obj)
  | typeError
  | undefined
  deriving DecidableEq

/-- The outcome of an operation on values (C12 and C37 say which one it is). -/
def Calc.of : Option (Res Obj) → Calc
  | none => .typeError
  | some (.ok v) => .value v
  | some _ => .undefined

/-- The order of tables, which are compared by address, is not defined. -/
def Calc.op (H : Lang.Host) (o : Bin) : Obj → Obj → Calc
  | .tab x, .tab y => if o ∈ [Bin.lt, .lte, .gt, .gte] then .undefined else .of (binV H.env o (.tab x) (.tab y))
  | x, y => .of (binV H.env o x y)

/-- Direct evaluation: first the left operand, then the right one, then the operation; `x` has the value `var x`. -/
def direct (H : Lang.Host) (var : Bytes → Obj) : Ast → Calc
  | .num t => match Lang.constVal H t with
    | some v => .value v
    | none => .undefined
  | .str s => .value (.str 0 s)
  | .id x => .value (var x)
  | .bin o a b => match direct H var a with
    | .value x => match direct H var b with
      | .value y => .op H o x y
      | r => r
    | r => r
  | .un o a => match direct H var a with
    | .value x => .of (unV o x)
    | r => r
  | _ => .value .nil

/-- The value of a name. -/
def varOf (s : St) (x : Bytes) : Obj :=
  match s.scope with
  | .fn env => (Lang.valueOf x env).getD (globalVal x s)
  | _ => globalVal x s

/-- The outcome of an evaluation that leaves the state alone. -/
def Calc.out (s : St) : Calc → Lang.Out (List Obj)
  | .value v => .ok [v] s
  | .typeError => .err .type
  | .undefined => .odd

theorem plain_decls (a : Ast) : plainExpr a = true → Lang.decls a = [] := by
  induction a with
  | bin o a b iha ihb =>
    intro h
    simp only [plainExpr, Bool.and_eq_true] at h
    rw [Lang.decls, iha h.1, ihb h.2]
    rfl
  | un o a ih => exact ih
  | nil | num | str | id => intro _; rfl
  | _ => intro h; cases h

theorem ev_bind_eq {α β : Type} (x : Lang.Ev α) (f : α → Lang.Ev β) (s : St) : (x >>= f) s = (match x s with
    | .ok a s => f a s
    | .ret v s => .ret v s
    | .err e => .err e
    | .odd => .odd
    | .time => .time : Lang.Out β) := rfl

theorem one_out {a : Ast} {x : Lang.Ev (List Obj)} {s : St} {r : Calc} (ha : Lang.decls a = []) (h : x s = r.out s) {β : Type} (f : Obj → Lang.Ev β) :
    (Lang.one a x >>= f) s = match (generalizing := false) r with
      | .value v => f v s
      | .typeError => .err .type
      | .undefined => .odd := by
  unfold Lang.one
  rw [if_pos ha]
  rw [ev_bind_eq, ev_bind_eq, h]
  cases r <;> rfl

theorem result_out (r : Option (Res Obj)) (s : St) : (Lang.result r >>= fun v => pure [v]) s = (Calc.of r).out s := by
  cases r with
  | none => rfl
  | some r => cases r <;> rfl

theorem eval_calc {H : Lang.Host} {n : Nat} {run : Ast → Lang.Ev (List Obj)} (s : St) (a : Ast) : plainExpr a = true → Lang.eval H n run a false s = (direct H (varOf s) a).out s := by
  induction a with
  | nil => intro _; rfl
  | num t =>
    intro _
    rw [Lang.eval]
    unfold Lang.const
    rw [direct]
    cases Lang.constVal H t <;> rfl
  | str t => intro _; rfl
  | id x =>
    intro _
    rw [Lang.eval, if_neg (by simp), direct]
    rw [ev_bind_eq]
    unfold Lang.getVar varOf
    cases s.scope <;> rfl
  | un o a ih =>
    intro h
    rw [Lang.eval, one_out (plain_decls a h) (ih h), direct]
    cases direct H (varOf s) a with
    | value x => exact result_out _ _
    | typeError => rfl
    | undefined => rfl
  | bin o a b iha ihb =>
    intro h
    simp only [plainExpr, Bool.and_eq_true] at h
    rw [Lang.eval, one_out (plain_decls a h.1) (iha h.1), direct]
    cases direct H (varOf s) a with
    | typeError => rfl
    | undefined => rfl
    | value x =>
      simp only
      rw [one_out (plain_decls b h.2) (ihb h.2)]
      cases direct H (varOf s) b with
      | typeError => rfl
      | undefined => rfl
      | value y =>
        simp only
        unfold Lang.binary Calc.op
        cases x <;> cases y <;> try exact result_out _ _
        simp only
        split
        · rfl
        · exact result_out _ _
  | _ => intro h; cases h

theorem exec_calc {H : Lang.Host} {n : Nat} (s : St) {a : Ast} (h : plainExpr a = true) : Lang.exec H n a s = (direct H (varOf s) a).out s := by
  cases n with
  | zero => exact eval_calc s a h
  | succ n => exact eval_calc s a h

/-- **C42**, expressions of constants, names and operators: their code pushes the value that direct evaluation gives, and changes nothing
else: neither the rest of the stack nor the state of the program.  A type error stops the machine. -/
theorem C42_arithmetic (ts : List T2) (a : Ast) (h : Syn .cond ts a) (hp : plainExpr a = true) (p : P) (rest : List T2) (hv : View p (ts ++ rest)) (hn : Nxt bCond rest) (sh : Shape)
    (ht : Tabs (cs p) sh) :
    ∃ r p', (∃ N, ∀ m ≥ N, parse m .cond p = .ok (some (r, p'))) ∧ View p' rest ∧ Tabs (cs p') sh ∧
      ∀ K : Ctx, Fine K → ∀ l r, Lies K p p' l r → ∀ ρ s vm, s.scope.shape = sh → Stands K ρ s vm l →
        match direct K.host (varOf s) a with
        | .value v => ∃ ρ' vm' x, Gets K vm vm' ∧ Stands K ρ' s vm' r ∧ vm'.stack = x :: vm.stack ∧ Rep ρ' vm'.heap v x ∧ Kept ρ vm ρ' vm'
        | .typeError => ∃ vm', Gets K vm vm' ∧ vm'.state = .error ∧ vm'.error = .type
        | .undefined => True := by
  have hlegal : ∀ (a : Ast) (sh : Shape), plainExpr a = true → Legal sh a := by
    intro a
    induction a with
    | bin o a b iha ihb =>
      intro sh h
      simp only [plainExpr, Bool.and_eq_true] at h
      exact ⟨iha sh h.1, ihb _ h.2⟩
    | un o a ih => exact fun sh h => ih sh h
    | nil | num | str | id => intro _ _; trivial
    | _ => intro _ h; cases h
  obtain ⟨r, p', h1, h2, h3, h4⟩ := C42_expression ts a h p rest hv hn sh ht (hlegal a sh hp)
  refine ⟨r, p', h1, h2, h3, fun K g l r hl ρ s vm hs hst => ?_⟩
  have := h4 K g l r hl ρ s vm hs hst 0
  rw [exec_calc s hp] at this
  cases hc : direct K.host (varOf s) a with
  | value v =>
    rw [hc] at this
    obtain ⟨v', ρ', vm', x, h5, h6, h7, h8, h9, h10, _⟩ := this
    cases h5
    exact ⟨ρ', vm', x, h6, h7, h8, h9, h10⟩
  | typeError => rw [hc] at this; exact this
  | undefined => trivial

/-- A compiler before `1+2*3)`. -/
def sumStart : P := ⟨⟨.const, [49], 1, 1, []⟩, [⟨.addsub, [43], 1, 2, []⟩, ⟨.const, [50], 1, 3, []⟩, ⟨.muldiv, [42], 1, 4, []⟩, ⟨.const, [51], 1, 5, []⟩, ⟨.parclose, [], 1, 6, []⟩],
  true, 1, [], [], [[]], []⟩

def sumAst : Ast := .bin .add (.num [49]) (.bin .mul (.num [50]) (.num [51]))

theorem sum_syn : Syn .cond [(.const, [49]), (.addsub, [43]), (.const, [50]), (.muldiv, [42]), (.const, [51])] sumAst :=
  syn_cond (.expr (.sum (.sum1 (syn_prod .num)) .add (.prod (syn_prod .num) .mul (.modu1 (.pow1 (.shift1 (.andor1 (.opnd .num))))))))

theorem sum_code (m : Nat) : ∃ r p', parse (m + 40) .cond sumStart = .ok (some (r, p')) ∧ p'.code.map Prod.fst = [.txt 36 [49], .txt 36 [50], .txt 36 [51], .op 9, .op 7] ∧ p'.chunks = [] ∧ p'.strings = [] :=
  ⟨_, _, rfl, rfl, rfl, rfl⟩

/-- The bytecode of `1+2*3`, and a `nop`. -/
def sumCtx (F : CFuns) : Ctx := ⟨someEnv, F, fun _ => none, [36, 1, 0, 0, 0, 36, 2, 0, 0, 0, 36, 3, 0, 0, 0, 9, 7, 0], fun _ => 0, [], Lang.noLib, 0, false, 0⟩

/-- A machine before it. -/
def sumVm (F : CFuns) : VM := { VM.new with code := (sumCtx F).code, state := .ready }

/-- The machine calculates 7. -/
example (F : CFuns) (hF : FOk F) : ∃ vm' x, Gets (sumCtx F) (sumVm F) vm' ∧ vm'.pc = 17 ∧ vm'.stack = [x] ∧ Holds vm'.heap x (.atom (.int 7)) := by
  obtain ⟨r, p', ⟨N, h1⟩, _, _, h2⟩ := C42_arithmetic _ sumAst sum_syn rfl sumStart [(.parclose, [])] ⟨by decide, rfl⟩ ⟨_, _, _, rfl, by decide⟩ .top ⟨[], rfl, by simp [BaseOk]⟩
  obtain ⟨r', p'', k1, k2, k3, k4⟩ := sum_code N
  rw [h1 _ (by omega)] at k1
  cases k1
  have hl : Lies (sumCtx F) sumStart p' 0 17 := by
    refine ⟨(by rw [k4]; intro x i h; cases h), ?_, (by rw [k3]; intro c hc; cases hc), (by show 17 < 18; decide)⟩
    show CodeAt _ 0 (p'.code.map Prod.fst) 17
    rw [k2]
    have hn : ∀ {t i : _} {w : Nat} {v : Int}, i = 36 → Lang.decimal t = some v → w = (v % 4294967296).toNat →
        (i = 35 → ∀ w', (sumCtx F).strtof t = some w' → w' = w) ∧ (i = 36 → ∀ v, Lang.decimal t = some v → w = (v % 4294967296).toNat) := by
      rintro t i w v rfl h1 h2
      refine ⟨fun h => (by cases h), fun _ v' h => ?_⟩
      rw [h1] at h
      cases h
      exact h2
    exact ⟨5, ⟨rfl, ⟨1, ⟨by decide, rfl⟩, hn (v := 1) rfl (by decide) (by decide)⟩, rfl⟩, 10, ⟨rfl, ⟨2, ⟨by decide, rfl⟩, hn (v := 2) rfl (by decide) (by decide)⟩, rfl⟩,
      15, ⟨rfl, ⟨3, ⟨by decide, rfl⟩, hn (v := 3) rfl (by decide) (by decide)⟩, rfl⟩, 16, ⟨rfl, rfl⟩, 17, ⟨rfl, rfl⟩, rfl⟩
  have hi : VInv (sumVm F) := { VM.new_inv with size := (by show 18 ≤ 2147483647; decide), depth := fun _ => rfl }
  have hs : Stands (sumCtx F) [] ⟨[], [], .top⟩ (sumVm F) 0 := by
    refine ⟨⟨hi, rfl, rfl, (by intro x i h; cases h), rfl, List.nodup_nil, by simp, by simp, (by intro x i h; cases h)⟩, rfl, rfl⟩
  have := h2 (sumCtx F) ⟨⟨(by show 18 ≤ 2147483647; decide), hF, Obj.strcmpDiff_law, (by intro x i h; cases h), (by intro x i h; cases h), noLib_ok rfl⟩, rfl, rfl⟩ 0 17 hl [] ⟨[], [], .top⟩ (sumVm F) rfl hs
  have hd : direct (sumCtx F).host (varOf ⟨[], [], .top⟩) sumAst = .value (.int 7) := by
    have : direct ⟨someEnv, fun _ => none, Lang.noLib⟩ (fun _ => .nil) sumAst = .value (.int 7) := by decide +kernel
    exact this
  rw [hd] at this
  obtain ⟨ρ', vm', x, c1, c2, c3, ⟨c, c4, c5⟩, _⟩ := this
  refine ⟨vm', x, c1, c2.pc, c3, ?_⟩
  cases c <;> cases c5
  exact c4

/-! ### C43 -/

/-- What the machine does with the code of a statement: it ends behind the code with its stack as before and in the state in which the statement
ends, it returns from its function, it stops with an error, or it goes on. -/
def Executes (K : Ctx) (ρ : List Nat) (a : Ast) (s : St) (vm : VM) (r : Nat) (sh' : Shape) (n : Nat) : Prop :=
  match Lang.exec K.host n a s with
  | .ok _ s' => ∃ ρ' vm', Gets K vm vm' ∧ Stands K ρ' s' vm' r ∧ vm'.stack = vm.stack ∧ Kept ρ vm ρ' vm' ∧ s'.scope.shape = sh'
  | .ret v s' => ∃ ρ' vm', Gets K vm vm' ∧ Returned K ρ vm v s' ρ' vm'
  | .err e => ∃ vm', Gets K vm vm' ∧ vm'.state = .error ∧ vm'.error = e
  | .odd => True
  | .time => ∃ k vm', n ≤ k ∧ stepN K.E K.F k vm = .ok vm' ∧ vm'.state = .ready

theorem stat_executes {K : Ctx} (g : Fine K) {a : Ast} (ha : Lang.isStat a = true) {p p' : P} {o : Comp.Out} {l r : Nat} (hc : comp a .val (cs p) = some o) (hg : Go p p' o)
    (hl : Lies K p p' l r) {ρ : List Nat} {s : St} {vm : VM} (hs : Stands K ρ s vm l) (ht : Tabs (cs p) s.scope.shape) (n : Nat) :
    Executes K ρ a s vm r (s.scope.shape.ext (Lang.decls a)) n := by
  have := phrase_runs g hc hg hl hs ht n
  unfold Executes
  cases hx : Lang.exec K.host n a s with
  | ok vs s' =>
    rw [hx] at this
    obtain ⟨ρ', vm', as, h1, h2, h3, h4, h5, h6⟩ := this
    cases Lang.exec_stat ha hx
    cases h5
    exact ⟨ρ', vm', h1, h2, h4, h3, exec_adds hx⟩
  | ret v s' => rw [hx] at this; exact this
  | err e => rw [hx] at this; exact this
  | odd => trivial
  | time => rw [hx] at this; exact this

/-- **C43**, one statement (`if`, `if`/`else`, `while`, `for` with their bodies, and all others): the compiler takes exactly the statement, and
wherever the code emitted for it lies, a machine in a state of the program executes it as its meaning says, with balanced stacks.  The
compiler's tables afterwards are those of the scope with the variables that the statement declares. -/
theorem C43_statement (ts : List T2) (a : Ast) (h : Syn .stat ts a) (p : P) (rest : List T2) (hv : View p (ts ++ rest)) (hn : After a rest) (sh : Shape) (ht : Tabs (cs p) sh)
    (hl : Legal sh a) :
    ∃ r p', (∃ N, ∀ m ≥ N, parse m .stat p = .ok (some (r, p'))) ∧ View p' rest ∧ Tabs (cs p') (sh.ext (Lang.decls a)) ∧
      ∀ K : Ctx, Fine K → ∀ l r, Lies K p p' l r → ∀ ρ s vm, s.scope.shape = sh → Stands K ρ s vm l → ∀ n, Executes K ρ a s vm r (sh.ext (Lang.decls a)) n := by
  obtain ⟨o, ho⟩ := ((comp_takes a .val).2 (cs p) sh ht).mpr hl
  obtain ⟨r, p', ⟨N, e⟩, hv', hg⟩ := claim h p rest o (fun _ p' => View p' rest ∧ Go p p' o) hv hn (tabs_ne ht) ho fun r p' h1 h2 => ⟨h1, h2⟩
  refine ⟨r, p', ⟨N, e⟩, hv', by rw [hg.cs]; exact comp_tabs a .val _ _ _ ho ht, ?_⟩
  rintro K g l r hlies ρ s vm rfl hs n
  exact stat_executes g (Lang.syn_kind h) ho hg hlies hs ht n

/-- **C43**, lists of statements, up to the end of the block or of the text. -/
theorem C43_statements (ts : List T2) (a : Ast) (h : Syn .stats ts a) (p : P) (rest : List T2) (hv : View p (ts ++ rest)) (hn : Ends a rest) (sh : Shape) (ht : Tabs (cs p) sh)
    (hl : Legal sh a) :
    ∃ r p', (∃ N, ∀ m ≥ N, parse m .statRest p = .ok (some (r, p'))) ∧ View p' rest ∧ Tabs (cs p') (sh.ext (Lang.decls a)) ∧
      ∀ K : Ctx, Fine K → ∀ l r, Lies K p p' l r → ∀ ρ s vm, s.scope.shape = sh → Stands K ρ s vm l → ∀ n, Executes K ρ a s vm r (sh.ext (Lang.decls a)) n := by
  obtain ⟨o, ho⟩ := ((comp_takes a .val).2 (cs p) sh ht).mpr hl
  obtain ⟨r, p', ⟨N, e⟩, hv', hg⟩ := claim h p rest o (fun _ p' => View p' rest ∧ Go p p' o) hv hn (tabs_ne ht) ho fun r p' h1 h2 => ⟨h1, h2⟩
  refine ⟨r, p', ⟨N, e⟩, hv', by rw [hg.cs]; exact comp_tabs a .val _ _ _ ho ht, ?_⟩
  rintro K g l r hlies ρ s vm rfl hs n
  exact stat_executes g (Lang.syn_kind h) ho hg hlies hs ht n

/-! #### The meaning of the control structures -/

/-- With enough fuel, `a` started in `s` ends with `r`. -/
def Means (H : Lang.Host) (a : Ast) (s : St) (r : Lang.Out (List Obj)) : Prop := r ≠ .time ∧ ∃ n, Lang.exec H n a s = r

/-- The meaning does not depend on the fuel. -/
theorem Means.unique {H : Lang.Host} {a : Ast} {s : St} {r r' : Lang.Out (List Obj)} (h : Means H a s r) (h' : Means H a s r') : r = r' := by
  obtain ⟨h1, n, h2⟩ := h
  obtain ⟨h3, m, h4⟩ := h'
  have key : ∀ {n m : Nat} {r r' : Lang.Out (List Obj)}, n ≤ m → r ≠ .time → Lang.exec H n a s = r → Lang.exec H m a s = r' → r = r' := by
    intro n m r r' hnm h1 h2 h4
    rcases Lang.exec_less H hnm a s with h | h
    · exact absurd (h2.symm.trans h) h1
    · rw [← h2, h, h4]
  rcases Nat.le_total n m with h | h
  · exact key h h1 h2 h4
  · exact (key h h3 h4 h2).symm

theorem Means.at {H : Lang.Host} {a : Ast} {s : St} {r : Lang.Out (List Obj)} (h : Means H a s r) : ∃ n, ∀ m ≥ n, Lang.exec H m a s = r := by
  obtain ⟨h1, n, h2⟩ := h
  refine ⟨n, fun m hm => ?_⟩
  rcases Lang.exec_less H hm a s with h | h
  · exact absurd (h2.symm.trans h) h1
  · rw [← h, h2]


/-- How function bodies are evaluated with `n` rounds. -/
def runAt (H : Lang.Host) : Nat → Ast → Lang.Ev (List Obj)
  | 0 => fun _ _ => .time
  | n + 1 => Lang.exec H n

theorem exec_eq (H : Lang.Host) (n : Nat) (a : Ast) : Lang.exec H n a = Lang.eval H n (runAt H n) a false := by cases n <;> rfl

/-- The condition of a statement: an expression. -/
def isCond (c : Ast) : Prop := Lang.isExpr c = true ∧ Lang.decls c = []

/-- A statement that is executed conditionally declares no variables, or only global ones. -/
def Free (ds : List Bytes) (s : St) : Prop := s.scope = .top ∨ ds = []

theorem guarded_free {ds : List Bytes} {s : St} (h : Free ds s) (x : Lang.Ev (List Obj)) : Lang.guarded ds x s = x s := by
  unfold Lang.guarded
  cases hs : s.scope with
  | top => rfl
  | inner =>
    rcases h with h | h
    · rw [hs] at h; cases h
    · simp only; rw [if_pos h]
  | fn env =>
    rcases h with h | h
    · rw [hs] at h; cases h
    · simp only; rw [if_pos h]

theorem one_ok {c : Ast} (hc : isCond c) {x : Lang.Ev (List Obj)} {s s1 : St} {v : Obj} (h : x s = .ok [v] s1) : Lang.one c x s = .ok v s1 := by
  unfold Lang.one
  rw [if_pos hc.2, ev_bind_eq, h]
  rfl

/-- The outcomes other than an ordinary end. -/
def Stops (r : Lang.Out (List Obj)) : Prop := ∀ vs s, r ≠ .ok vs s

/-- The same outcome as that of something else. -/
def hasStopped {α β : Type} : Lang.Out α → Lang.Out β
  | .ret v s => .ret v s
  | .err e => .err e
  | .time => .time
  | _ => .odd

theorem stopped_self {r : Lang.Out (List Obj)} (h : Stops r) : hasStopped r = r := by
  cases r with
  | ok vs s => exact absurd rfl (h vs s)
  | _ => rfl

theorem stopped_twice {α β γ : Type} {r : Lang.Out α} : (hasStopped (hasStopped r : Lang.Out β) : Lang.Out γ) = hasStopped r := by cases r <;> rfl

theorem bind_stops {α β : Type} {x : Lang.Ev α} {f : α → Lang.Ev β} {s : St} {γ : Type} {r : Lang.Out γ} (h : x s = hasStopped r) : (x >>= f) s = hasStopped r := by
  rw [ev_bind_eq, h]
  cases r <;> rfl

theorem one_stops {c : Ast} (hc : isCond c) {x : Lang.Ev (List Obj)} {s : St} {r : Lang.Out (List Obj)} (h : x s = r) (hr : Stops r) : Lang.one c x s = hasStopped r := by
  unfold Lang.one
  rw [if_pos hc.2]
  exact bind_stops (by rw [h, stopped_self hr])

theorem noValue_ok {x : Lang.Ev (List Obj)} {s s1 : St} (h : x s = .ok [] s1) : Lang.noValue x s = .ok () s1 := by
  unfold Lang.noValue
  rw [ev_bind_eq, h]
  rfl

theorem noValue_stops {x : Lang.Ev (List Obj)} {s : St} {r : Lang.Out (List Obj)} (h : x s = r) (hr : Stops r) : Lang.noValue x s = hasStopped r := by
  unfold Lang.noValue
  exact bind_stops (by rw [h, stopped_self hr])

theorem means_of {H : Lang.Host} {a b : Ast} {s t : St} {n : Nat} (h : ∀ m ≥ n, Lang.exec H m a s = Lang.exec H m b t) (r : Lang.Out (List Obj)) : Means H a s r ↔ Means H b t r := by
  constructor
  · intro k
    obtain ⟨m, e⟩ := k.at
    exact ⟨k.1, max n m, by rw [← h _ (by omega)]; exact e _ (by omega)⟩
  · intro k
    obtain ⟨m, e⟩ := k.at
    exact ⟨k.1, max n m, by rw [h _ (by omega)]; exact e _ (by omega)⟩

/-- A sequence: the second part starts where the first one ends. -/
theorem C43_seq {H : Lang.Host} {a l : Ast} {s : St} :
    (∀ s1, Means H a s (.ok [] s1) → ∀ r, Means H (.seq a l) s r ↔ Means H l s1 r) ∧
    (∀ r, Stops r → Means H a s r → Means H (.seq a l) s r) := by
  constructor
  · intro s1 h r
    obtain ⟨n, e⟩ := h.at
    refine means_of (n := n) (fun m hm => ?_) r
    have := e m hm
    rw [exec_eq] at this ⊢
    rw [Lang.eval, ev_bind_eq, noValue_ok this, exec_eq]
  · intro r hr h
    obtain ⟨n, e⟩ := h.at
    refine ⟨h.1, n, ?_⟩
    have := e n le_rfl
    rw [exec_eq] at this ⊢
    rw [Lang.eval, bind_stops (noValue_stops this hr), stopped_self hr]

/-- `if` with `else`: the condition decides which branch is executed. -/
theorem C43_ite {H : Lang.Host} {c a b : Ast} (hc : isCond c) {s : St} :
    (∀ v s1, Means H c s (.ok [v] s1) → Free (Lang.decls a ++ Lang.decls b) s1 → ∀ r, Means H (.ite c a b) s r ↔ Means H (if truth v then a else b) s1 r) ∧
    (∀ r, Stops r → Means H c s r → Means H (.ite c a b) s r) := by
  constructor
  · intro v s1 h hf r
    obtain ⟨n, e⟩ := h.at
    refine means_of (n := n) (fun m hm => ?_) r
    have := e m hm
    rw [exec_eq] at this
    rw [exec_eq, Lang.eval, ev_bind_eq, one_ok hc this]
    simp only
    rw [guarded_free hf, exec_eq]
    split <;> rfl
  · intro r hr h
    obtain ⟨n, e⟩ := h.at
    refine ⟨h.1, n, ?_⟩
    have := e n le_rfl
    rw [exec_eq] at this
    rw [exec_eq, Lang.eval, bind_stops (one_stops hc this hr), stopped_self hr]

/-- `if` without `else`: nothing is executed instead. -/
theorem C43_if {H : Lang.Host} {c a : Ast} {s : St} (r : Lang.Out (List Obj)) : Means H (.ifs c a) s r ↔ Means H (.ite c a .skip) s r := by
  refine means_of (n := 0) (fun m _ => ?_) r
  rw [exec_eq, exec_eq, Lang.eval, Lang.eval, show Lang.decls .skip = [] from rfl, List.append_nil]
  rfl

theorem free_shape {ds es : List Bytes} {s s' : St} (h : Free ds s) (hs : s'.scope.shape = s.scope.shape.ext es) : Free ds s' := by
  rcases h with h | h
  · left
    rw [h] at hs
    cases hs' : s'.scope with
    | top => rfl
    | _ => rw [hs'] at hs; cases hs
  · exact .inr h

theorem means_less {H : Lang.Host} {a b : Ast} {s t : St} {n : Nat} (h : ∀ m ≥ n, ∃ m', Lang.exec H m a s = .time ∨ Lang.exec H m a s = Lang.exec H m' b t) {r : Lang.Out (List Obj)}
    (k : Means H a s r) : Means H b t r := by
  obtain ⟨m, e⟩ := k.at
  obtain ⟨m', h | h⟩ := h (max n m) (by omega)
  · exact absurd ((e _ (by omega)).symm.trans h) k.1
  · exact ⟨k.1, m', by rw [← h]; exact e _ (by omega)⟩

/-- The parts of a loop. -/
def condAt (H : Lang.Host) (n : Nat) (c : Ast) : Lang.Ev Obj := Lang.one c (Lang.eval H n (runAt H n) c false)

def bodyAt (H : Lang.Host) (n : Nat) (a : Ast) : Lang.Ev Unit := Lang.noValue (Lang.eval H n (runAt H n) a false)

theorem runAt_less (H : Lang.Host) {n m : Nat} (h : n ≤ m) (a : Ast) : Lang.Less (runAt H n a) (runAt H m a) := by
  cases n with
  | zero => exact fun s => .inl rfl
  | succ n =>
    obtain ⟨m, rfl⟩ : ∃ k, m = k + 1 := ⟨m - 1, by omega⟩
    exact Lang.exec_less H (by omega) a

theorem condAt_less (H : Lang.Host) {n m : Nat} (h : n ≤ m) (c : Ast) : Lang.Less (condAt H n c) (condAt H m c) := (Lang.eval_less h (runAt_less H h) c false).one

theorem bodyAt_less (H : Lang.Host) {n m : Nat} (h : n ≤ m) (c : Ast) : Lang.Less (bodyAt H n c) (bodyAt H m c) := (Lang.eval_less h (runAt_less H h) c false).noValue

theorem while_exec {H : Lang.Host} {c a : Ast} (hc : isCond c) {s : St} (hf : Free (Lang.decls a) s) (n : Nat) :
    Lang.exec H n (.while_ c a) s = Lang.loop (condAt H n c) (bodyAt H n a) n s := by
  rw [exec_eq, Lang.eval, hc.2, List.nil_append, guarded_free hf]
  rfl

theorem seq_while_exec {H : Lang.Host} {c a : Ast} (hc : isCond c) {s : St} (hf : Free (Lang.decls a) s) (n : Nat) :
    Lang.exec H n (.seq a (.while_ c a)) s = (bodyAt H n a >>= fun _ => Lang.loop (condAt H n c) (bodyAt H n a) n) s := by
  rw [exec_eq, Lang.eval]
  show (bodyAt H n a >>= fun _ => _) s = _
  rw [ev_bind_eq, ev_bind_eq]
  cases hb : bodyAt H n a s with
  | ok u s2 =>
    simp only
    have hs : s2.scope.shape = s.scope.shape.ext (Lang.decls a) := by
      obtain ⟨vs, s3, h1, h2⟩ := Lang.ev_bind_ok (show (Lang.eval H n (runAt H n) a false >>= fun vs => (match vs with | [] => (pure () : Lang.Ev Unit) | _ => Lang.odd)) s = .ok u s2 from hb)
      have := Lang.eval_adds _ _ _ _ _ _ _ _ h1
      cases vs with
      | nil => cases h2; exact this
      | cons => cases h2
    have := while_exec (H := H) hc (free_shape hf hs) n
    rw [exec_eq] at this
    exact this
  | _ => rfl

/-- `while`: as long as the condition is true, the body is executed and then the loop again. -/
theorem C43_while {H : Lang.Host} {c a : Ast} (hc : isCond c) {s : St} (hf : Free (Lang.decls a) s) :
    (∀ v s1, Means H c s (.ok [v] s1) → truth v = false → Means H (.while_ c a) s (.ok [] s1)) ∧
    (∀ v s1, Means H c s (.ok [v] s1) → truth v = true → ∀ r, Means H (.while_ c a) s r ↔ Means H (.seq a (.while_ c a)) s1 r) ∧
    (∀ r, Stops r → Means H c s r → Means H (.while_ c a) s r) := by
  have hcond : ∀ {v s1 n}, Lang.exec H n c s = .ok [v] s1 → condAt H n c s = .ok v s1 := by
    intro v s1 n h
    rw [exec_eq] at h
    exact one_ok hc h
  have hloop : ∀ {v s1 n}, Lang.exec H (n + 1) c s = .ok [v] s1 → ∀ k, Lang.loop (condAt H (n + 1) c) (bodyAt H (n + 1) a) (k + 1) s =
      (if truth v then bodyAt H (n + 1) a >>= fun _ => Lang.loop (condAt H (n + 1) c) (bodyAt H (n + 1) a) k else pure []) s1 := by
    intro v s1 n h k
    rw [Lang.loop, ev_bind_eq, hcond h]
  refine ⟨fun v s1 h hv => ?_, fun v s1 h hv r => ⟨fun k => ?_, fun k => ?_⟩, fun r hr h => ?_⟩
  · obtain ⟨n, e⟩ := h.at
    refine ⟨by simp, n + 1, ?_⟩
    rw [while_exec hc hf, hloop (e (n + 1) (by omega)), hv]
    rfl
  · obtain ⟨n, e⟩ := h.at
    have hf1 : Free (Lang.decls a) s1 := free_shape hf (exec_adds (e n le_rfl))
    refine means_less (n := n + 1) (fun m hm => ⟨m, ?_⟩) k
    obtain ⟨m, rfl⟩ : ∃ k, m = k + 1 := ⟨m - 1, by omega⟩
    rw [while_exec hc hf, hloop (e (m + 1) (by omega)), hv, if_pos rfl, seq_while_exec hc hf1]
    exact Lang.Less.bind (.refl _) (fun _ => Lang.Less.loop (.refl _) (.refl _) (by omega)) s1
  · obtain ⟨n, e⟩ := h.at
    have hf1 : Free (Lang.decls a) s1 := free_shape hf (exec_adds (e n le_rfl))
    refine means_less (n := n) (fun m hm => ⟨m + 1, ?_⟩) k
    rw [while_exec hc hf, hloop (e (m + 1) (by omega)), hv, if_pos rfl, seq_while_exec hc hf1]
    exact Lang.Less.bind (bodyAt_less H (by omega) a) (fun _ => Lang.Less.loop (condAt_less H (by omega) c) (bodyAt_less H (by omega) a) le_rfl) s1
  · obtain ⟨n, e⟩ := h.at
    refine ⟨h.1, n + 1, ?_⟩
    have := e (n + 1) (by omega)
    rw [exec_eq] at this
    rw [while_exec hc hf, Lang.loop, bind_stops (show condAt H (n + 1) c s = hasStopped r from one_stops hc this hr), stopped_self hr]

/-- A loop whose condition is always true and whose body always ends has no meaning: it goes on forever. -/
theorem C43_while_forever {H : Lang.Host} {c a : Ast} (hc : isCond c) (st st' : Nat → St) (v : Nat → Obj) (hf : Free (Lang.decls a) (st 0))
    (h1 : ∀ i, Means H c (st i) (.ok [v i] (st' i)) ∧ truth (v i) = true) (h2 : ∀ i, Means H a (st' i) (.ok [] (st (i + 1)))) :
    ∀ n, Lang.exec H n (.while_ c a) (st 0) = .time := by
  intro n
  rw [while_exec hc hf]
  have : ∀ k i, Lang.loop (condAt H n c) (bodyAt H n a) k (st i) = .time := by
    intro k
    induction k with
    | zero => intro i; rfl
    | succ k ih =>
      intro i
      rw [Lang.loop, ev_bind_eq]
      obtain ⟨m, e⟩ := (h1 i).1.at
      have hm := e (max n m) (by omega)
      rw [exec_eq] at hm
      rcases condAt_less H (Nat.le_max_left n m) c (st i) with h | h
      · rw [h]
      · rw [h, show condAt H (max n m) c (st i) = .ok (v i) (st' i) from one_ok hc hm]
        simp only
        rw [(h1 i).2, if_pos rfl, ev_bind_eq]
        obtain ⟨m', e'⟩ := (h2 i).at
        have hm' := e' (max n m') (by omega)
        rw [exec_eq] at hm'
        rcases bodyAt_less H (Nat.le_max_left n m') a (st' i) with h | h
        · rw [h]
        · rw [h, show bodyAt H (max n m') a (st' i) = .ok () (st (i + 1)) from noValue_ok hm']
          exact ih (i + 1)
  exact this n 0

theorem bind_assoc_ev {α β γ : Type} (x : Lang.Ev α) (f : α → Lang.Ev β) (k : β → Lang.Ev γ) : (x >>= f) >>= k = x >>= fun a => f a >>= k := by
  funext s
  rw [ev_bind_eq, ev_bind_eq, ev_bind_eq]
  cases x s with
  | ok a s1 => simp only; rw [ev_bind_eq]
  | _ => rfl

/-- `for`: the first statement, then a `while` whose body is the body and the last statement. -/
theorem C43_for {H : Lang.Host} {i c u a : Ast} {s : St} (r : Lang.Out (List Obj)) : Means H (.for_ i c u a) s r ↔ Means H (.seq i (.while_ c (.seq a u))) s r := by
  refine means_of (n := 0) (fun m _ => ?_) r
  rw [exec_eq, exec_eq, Lang.eval, Lang.eval, Lang.eval]
  have h1 : Lang.noValue (Lang.eval H m (runAt H m) (.seq a u) false) = (do Lang.noValue (Lang.eval H m (runAt H m) a false); Lang.noValue (Lang.eval H m (runAt H m) u false)) := by
    rw [Lang.eval]
    exact bind_assoc_ev _ _ _
  have h2 : ∀ x : Lang.Ev (List Obj), Lang.guarded (Lang.decls c ++ Lang.decls (.seq a u)) x = Lang.guarded (Lang.decls c ++ Lang.decls u ++ Lang.decls a) x := by
    intro x
    funext s
    unfold Lang.guarded
    have : (Lang.decls c ++ Lang.decls (.seq a u) = []) ↔ (Lang.decls c ++ Lang.decls u ++ Lang.decls a = []) := by
      simp only [Lang.decls, List.append_eq_nil_iff]
      tauto
    cases s.scope <;> simp only [this]
  rw [h1, h2]

/-- `while(x<3) x=x+1` -/
def upTo3 : Ast := .while_ (.bin .lt (.id [120]) (.num [51])) (.assign (.id [120]) (.bin .add (.id [120]) (.num [49])))

theorem upTo3_syn : Syn .stat [(.while_, chars "while"), (.paropen, []), (.id, [120]), (.cmp, [60]), (.const, [51]), (.parclose, []), (.id, [120]), (.assign, []), (.id, [120]), (.addsub, [43]), (.const, [49])]
    upTo3 := by
  have x : Syn (.opnd false) [(.id, [120])] (.id [120]) := .ref .id
  exact Syn.while_ (u := chars "while") (v := []) (w := []) (.cond (.logic1 (.cmp (syn_expr x) .lt (syn_expr (.num (t := [51]))))))
    (.sub (.simple (.assign (v := []) .id (by simp) (.expr (.sum (.sum1 (syn_prod x)) .add (syn_prod (.num (t := [49]))))))))

/-- A machine with `x` being 0 comes to the end of the loop with `x` being 3 and its stack as before. -/
example (p : P) (rest : List T2) (hv : View p ([(.while_, chars "while"), (.paropen, []), (.id, [120]), (.cmp, [60]), (.const, [51]), (.parclose, []), (.id, [120]), (.assign, []), (.id, [120]),
      (.addsub, [43]), (.const, [49])] ++ (.eof, []) :: rest)) (ht : Tabs (cs p) .top) :
    ∃ r p', (∃ N, ∀ m ≥ N, parse m .stat p = .ok (some (r, p'))) ∧ View p' ((.eof, []) :: rest) ∧
      ∀ K : Ctx, Fine K → K.host = ⟨someEnv, fun _ => none, Lang.noLib⟩ → ∀ l r, Lies K p p' l r → ∀ ρ vm, Stands K ρ ⟨[([120], .int 0)], [], .top⟩ vm l →
        ∃ ρ' vm' s', Gets K vm vm' ∧ Stands K ρ' s' vm' r ∧ vm'.stack = vm.stack ∧ globalVal [120] s' = .int 3 := by
  obtain ⟨r, p', h1, h2, _, h3⟩ := C43_statement _ upTo3 upTo3_syn p _ hv ⟨nxt_of (by decide), by simp [upTo3, Lang.bare], by simp [upTo3, Lang.openIf]⟩ .top ht ⟨⟨trivial, trivial⟩, trivial, trivial, trivial⟩
  refine ⟨r, p', h1, h2, fun K g hE l r hl ρ vm hs => ?_⟩
  have := h3 K g l r hl ρ _ vm rfl hs 10
  unfold Executes at this
  rw [hE] at this
  have hx : ∃ s, Lang.exec ⟨someEnv, fun _ => none, Lang.noLib⟩ 10 upTo3 ⟨[([120], .int 0)], [], .top⟩ = .ok [] s ∧ globalVal [120] s = .int 3 := of_endsWith (by decide +kernel)
  generalize Lang.exec ⟨someEnv, fun _ => none, Lang.noLib⟩ = ex at this hx
  obtain ⟨s', e, hv⟩ := hx
  rw [e] at this
  obtain ⟨ρ', vm', k1, k2, k3, _⟩ := this
  exact ⟨ρ', vm', s', k1, k2, k3, hv⟩

end Buzz.Props
