import Verif.CompTabs
import Verif.VMStep

/-
Where the code of a program lies in the bytecode, and how the states of the program's meaning (`Verif/Sem.lean`) and of the machine
correspond.
-/
namespace Buzz.Sim

open Buzz.Msg Buzz.Heap Buzz.Props Buzz.VM
open Buzz.Lang (Ast Thing Scope Shape St Host)
open Buzz.Parser (Ln)
open Buzz.Comp (CS EC Sub Loc Tabs comp bodyC)

/-! ### Code -/

/-- A machine's surroundings, its bytecode, the positions of the labels, the numbers of the strings, the meaning of the functions of the host,
how many they are, whether they may fill the machine's table of strings, and how many stacks at least lie below the current one. -/
structure Ctx where
  E : Env
  F : CFuns
  strtof : Bytes → Option Nat
  code : Bytes
  pos : Nat → Nat
  strings : List (Bytes × Nat)
  lib : Lang.Lib
  nfuns : Nat
  loose : Bool
  floor : Nat

/-- The same surroundings for the meaning of programs. -/
def Ctx.host (K : Ctx) : Host := ⟨K.E, K.strtof, K.lib⟩

/-- The argument of the instruction at `p`. -/
def ArgAt (K : Ctx) (p w : Nat) : Prop := w < 4294967296 ∧ rd32 K.E.endian K.code (p + 1) = .ok w

/-- The line `ln` of assembly lies at `p`; the next one lies at `q`. -/
def LnAt (K : Ctx) (p : Nat) : Ln → Nat → Prop
  | .lab k, q => K.pos k = p ∧ q = p
  | .exit, q => q = p
  | .op i, q => rd K.code p = .ok i ∧ q = p + 1
  | .num i v, q => rd K.code p = .ok i ∧ ArgAt K p (v % 4294967296).toNat ∧ q = p + 5
  | .txt i t, q => rd K.code p = .ok i ∧ (∃ w, ArgAt K p w ∧ (i = 35 → ∀ w', K.strtof t = some w' → w' = w) ∧
      (i = 36 → ∀ v, Lang.decimal t = some v → w = (v % 4294967296).toNat)) ∧ q = p + 5
  | .ref i k, q => rd K.code p = .ok i ∧ ArgAt K p (K.pos k) ∧ K.pos k < K.code.length ∧ q = p + 5

/-- The lines lie between `p` and `q`. -/
def CodeAt (K : Ctx) (p : Nat) : List Ln → Nat → Prop
  | [], q => q = p
  | l :: ls, q => ∃ r, LnAt K p l r ∧ CodeAt K r ls q

theorem LnAt.le {K : Ctx} {p q : Nat} {l : Ln} (h : LnAt K p l q) : p ≤ q := by
  cases l with
  | lab k => exact h.2.symm.le
  | exit => exact (Eq.symm h).le
  | op i => have := h.2; omega
  | num i v => have := h.2.2; omega
  | txt i t => have := h.2.2; omega
  | ref i k => have := h.2.2.2; omega

theorem CodeAt.le {K : Ctx} {ls : List Ln} : ∀ {p q : Nat}, CodeAt K p ls q → p ≤ q := by
  induction ls with
  | nil => intro p q h; exact (Eq.symm h).le
  | cons l ls ih =>
    intro p q h
    obtain ⟨r, h1, h2⟩ := h
    exact h1.le.trans (ih h2)

theorem codeAt_append {K : Ctx} {a b : List Ln} : ∀ {p q : Nat}, CodeAt K p (a ++ b) q ↔ ∃ r, CodeAt K p a r ∧ CodeAt K r b q := by
  induction a with
  | nil =>
    intro p q
    constructor
    · intro h; exact ⟨p, rfl, h⟩
    · rintro ⟨r, h1, h2⟩
      cases h1
      exact h2
  | cons l a ih =>
    intro p q
    constructor
    · rintro ⟨r, h1, h2⟩
      obtain ⟨r', h3, h4⟩ := ih.mp h2
      exact ⟨r', ⟨r, h1, h3⟩, h4⟩
    · rintro ⟨r, ⟨r', h1, h2⟩, h3⟩
      exact ⟨r', h1, ih.mpr ⟨r, h2, h3⟩⟩

theorem codeAt_one {K : Ctx} {l : Ln} {p q : Nat} : CodeAt K p [l] q ↔ LnAt K p l q := by
  constructor
  · rintro ⟨r, h1, h2⟩
    cases h2
    exact h1
  · intro h
    exact ⟨q, h, rfl⟩

/-- The chunks lie at their labels. -/
def Placed (K : Ctx) (news : List EC) : Prop := ∀ c ∈ news, ∃ q, CodeAt K (K.pos c.label) c.code q ∧ q ≤ K.code.length

theorem Placed.left {K : Ctx} {a b : List EC} (h : Placed K (a ++ b)) : Placed K a := fun c hc => h c (List.mem_append_left _ hc)

theorem Placed.right {K : Ctx} {a b : List EC} (h : Placed K (a ++ b)) : Placed K b := fun c hc => h c (List.mem_append_right _ hc)

/-- At `p` lies the code of a function with the captured variables `xs`, the parameters `ps` and the body `b`. -/
def FunAt (K : Ctx) (p : Int) (xs ps : List Bytes) (b : Ast) : Prop :=
  ∃ (c : CS) (o : Comp.Out) (n q : Nat), Loc c.symstack (xs ++ ps) c.strings ∧ bodyC (comp b .val) c = some o ∧ Sub o.cs.strings K.strings ∧ Placed K o.news ∧
    p = (n : Int) ∧ CodeAt K n (o.code ++ [.op 5]) q ∧ q ≤ K.code.length

/-! ### Values -/

/-- The value `v` of the program is the value `o` of the machine; `ρ` gives the addresses of the locations. -/
def Img (ρ : List Nat) : Obj → Obj → Prop
  | .tab l, o => ∃ a, ρ[l]? = some a ∧ o = .tab a
  | .clo l, o => ∃ a, ρ[l]? = some a ∧ o = .clo a
  | .str i s, o => i = 0 ∧ Obj.CStr s ∧ ∃ j, o = .str j s
  | .nil, o => o = .nil
  | .int v, o => o = .int v
  | .flt f, o => o = .flt f
  | .user p, o => o = .user p

/-- The object at `a` is the value `v`. -/
def Rep (ρ : List Nat) (h : Heap) (v : Obj) (a : Nat) : Prop := ∃ c, Holds h a c ∧ Img ρ v (objOf a c)

/-- The machine's table `t` has the entries `es`. -/
structure TabOk (ρ : List Nat) (h : Heap) (es : List (Obj × Obj)) (t : Table.Tbl (Nat × Nat)) : Prop where
  wf : Dict.WF Table.hashN Table.eqd t
  nodup : (es.map (·.1)).Nodup
  kind : (∀ e ∈ es, ∃ v, e.1 = .int v) ∨ (∀ e ∈ es, ∃ s, e.1 = .str 0 s)
  entries : ∃ l, (Dict.entries t).Perm l ∧ List.Forall₂ (fun e e' => Img ρ e.1 e'.1 ∧ Rep ρ h e.2 e'.2.2) es l

/-- The cell `c` is what a location holds. -/
def ThingOk (K : Ctx) (ρ : List Nat) (h : Heap) : Thing → Cell → Prop
  | .tab es, c => ∃ t, c = .tab t ∧ TabOk ρ h es t
  | .fn ps b env, c => ∃ p l, c = .clo true p l ∧ List.Forall₂ (fun e a => Rep ρ h e.2 a) env l ∧ env ≠ [] ∧ FunAt K p (env.map (·.1)) ps b
  | .host n env, c => n < K.nfuns ∧ ∃ l, c = .clo false n l ∧ List.Forall₂ (fun v a => Rep ρ h v a) env l ∧ env ≠ []

/-- The machine is in the state `s` of the program, apart from stack, variables of functions and program counter. -/
structure Core (K : Ctx) (ρ : List Nat) (s : St) (vm : VM) : Prop where
  inv : VInv vm
  ready : vm.state = .ready
  base : (vm.code, vm.nfuns) = (K.code, K.nfuns)
  strs : ∀ x i, FMap.get K.strings x = some i → FMap.get vm.strings.id2str i = some (x, true)
  len : ρ.length = s.store.length
  nodup : ρ.Nodup
  low : ∀ a ∈ ρ, a < vm.heap.brk
  things : ∀ (l a : Nat) t c, ρ[l]? = some a → s.store[l]? = some t → Holds vm.heap a c → ThingOk K ρ vm.heap t c
  globals : ∀ x i, FMap.get K.strings x = some i →
    (∀ a, FMap.get vm.gsyms i = some a → Rep ρ vm.heap (Lang.globalVal x s) a) ∧ (FMap.get vm.gsyms i = none → Lang.globalVal x s = .nil)

theorem Core.code {K : Ctx} {ρ : List Nat} {s : St} {vm : VM} (h : Core K ρ s vm) : vm.code = K.code := congrArg Prod.fst h.base

theorem Core.nfuns {K : Ctx} {ρ : List Nat} {s : St} {vm : VM} (h : Core K ρ s vm) : vm.nfuns = K.nfuns := congrArg Prod.snd h.base

/-- `h'` has only new objects and old ones with the same content. -/
structure Ext (h h' : Heap) : Prop where
  brk : h.brk ≤ h'.brk
  same : ∀ a c, a < h.brk → Holds h' a c → Holds h a c

/-- `h'` has only new objects and old ones with the same value. -/
structure Evo (h h' : Heap) : Prop where
  brk : h.brk ≤ h'.brk
  same : ∀ a c', a < h.brk → Holds h' a c' → ∃ c, Holds h a c ∧ objOf a c = objOf a c'

/-- The machine has returned from the function that it was in at `vm0`, with the value `v` and in the state `s`. -/
def RetOf (K : Ctx) (vm0 : VM) (ρ0 : List Nat) (v : Obj) (s : St) (vm : VM) : Prop :=
  ∃ ρ a ra S rs, vm0.rest = (ra :: S) :: rs ∧ (∀ n : Int, ra < vm0.heap.brk → Holds vm0.heap ra (.atom (.int n)) → vm.pc = n) ∧ vm.rest = rs ∧ vm.stack = a :: S ∧
    vm.frames = vm0.frames.tail ∧ Core K ρ s vm ∧ Rep ρ vm.heap v a ∧ Evo vm0.heap vm.heap ∧ ρ0 <+: ρ

/-- The functions of the host do what their meaning says, unless the table of strings may be filled: entered with the local variables `vs`, they
return the value, or set the error. -/
def LibOk (K : Ctx) : Prop :=
  ∀ (n : Nat) (vs : List Obj) (s : St) (vm : VM) (ρ : List Nat) (f : Frame) (fs : List Frame) (ra : Nat) (S : List Nat) (rs : List (List Nat)) (m : Nat), n < K.nfuns → vs ≠ [] →
    Core K ρ s vm → s.scope = .top → vm.frames = f :: fs → List.Forall₂ (fun v a => Rep ρ vm.heap v a) vs f.syms → vm.stack = [] → vm.rest = (ra :: S) :: rs →
    Holds vm.heap ra (.atom (.int (m : Int))) → m < K.code.length → (K.loose = true → vm.strings.id2str.length ≤ 65533) →
    match K.lib n vs s with
    | .ok v s' => ∃ vm', K.F n vm = .ok vm' ∧ RetOf K vm ρ v s' vm'
    | .err e => ∃ vm', K.F n vm = .ok vm' ∧ vm'.state = .error ∧ vm'.error = e
    | _ => True

/-- What is assumed about the surroundings. -/
structure Good (K : Ctx) : Prop where
  size : K.code.length ≤ 2147483647
  funs : FOk K.F
  law : Obj.StrcmpLaw K.E.sc
  cstr : ∀ x i, FMap.get K.strings x = some i → Obj.CStr x
  small : ∀ x i, FMap.get K.strings x = some i → i < 65536
  lib : LibOk K

theorem noLib_ok {K : Ctx} (h : K.lib = Lang.noLib) : LibOk K := by
  intro n vs s vm ρ f fs ra S rs m _ _ _ _ _ _ _ _ _ _ _
  rw [h]
  trivial

/-- The machine's variables are those of the scope. -/
def Sc (K : Ctx) (ρ : List Nat) (vm : VM) : Scope → Prop
  | .fn env => (0 < env.length ∧ env.length < Lang.limit) ∧ (∃ f fs, vm.frames = f :: fs ∧ List.Forall₂ (fun e a => Rep ρ vm.heap e.2 a) env f.syms) ∧
      ∃ ra S rs n, vm.rest = (ra :: S) :: rs ∧ Holds vm.heap ra (.atom (.int (n : Nat))) ∧ n < K.code.length
  | _ => vm.frames = []

theorem Ext.refl (h : Heap) : Ext h h := ⟨le_rfl, fun _ _ _ k => k⟩

theorem Ext.evo {h h' : Heap} (e : Ext h h') : Evo h h' := ⟨e.brk, fun a c l k => ⟨c, e.same a c l k, rfl⟩⟩

theorem Evo.refl (h : Heap) : Evo h h := (Ext.refl h).evo

theorem Ext.trans {a b c : Heap} (e : Ext a b) (f : Ext b c) : Ext a c :=
  ⟨e.brk.trans f.brk, fun x k l m => e.same x k l (f.same x k (lt_of_lt_of_le l e.brk) m)⟩

theorem Evo.trans {a b c : Heap} (e : Evo a b) (f : Evo b c) : Evo a c := by
  refine ⟨e.brk.trans f.brk, fun x k l m => ?_⟩
  obtain ⟨k1, h1, h2⟩ := f.same x k (lt_of_lt_of_le l e.brk) m
  obtain ⟨k2, h3, h4⟩ := e.same x k1 l h1
  exact ⟨k2, h3, h4.trans h2⟩

theorem brk_new (h : Heap) (c : Cell) : (newobj h c).1.brk = h.brk + 1 := rfl

theorem ext_new {h : Heap} (i : Inv h) (c : Cell) : Ext h (newobj h c).1 := by
  refine ⟨by rw [brk_new]; omega, fun a c' l k => ?_⟩
  rcases (holds_alloc i).mp k with ⟨rfl, _⟩ | k
  · omega
  · exact k

theorem evo_write {h : Heap} {a : Nat} {t t' : Table.Tbl (Nat × Nat)} (k : Holds h a (.tab t)) : Evo h (write h a (.tab t')) := by
  refine ⟨le_rfl, fun x c' l m => ?_⟩
  rcases (holds_write k).mp m with ⟨rfl, rfl⟩ | ⟨_, m⟩
  · exact ⟨_, k, rfl⟩
  · exact ⟨c', m, rfl⟩

theorem Img.mono {ρ ρ' : List Nat} (p : ρ <+: ρ') {v o : Obj} (h : Img ρ v o) : Img ρ' v o := by
  have g : ∀ {l a : Nat}, ρ[l]? = some a → ρ'[l]? = some a := by
    intro l a e
    obtain ⟨t, rfl⟩ := p
    rw [List.getElem?_append_left (List.getElem?_eq_some_iff.mp e).1]
    exact e
  cases v with
  | tab l =>
    obtain ⟨a, h1, h2⟩ := h
    exact ⟨a, g h1, h2⟩
  | clo l =>
    obtain ⟨a, h1, h2⟩ := h
    exact ⟨a, g h1, h2⟩
  | _ => exact h

theorem Rep.live {ρ : List Nat} {h : Heap} {v : Obj} {a : Nat} (r : Rep ρ h v a) : Live h a := by
  obtain ⟨c, h1, _⟩ := r
  exact ⟨c, h1⟩

theorem held_lt {h : Heap} (i : Inv h) {a : Nat} {c : Cell} (k : Holds h a c) : a < h.brk := by
  obtain ⟨m, h1, _⟩ := k
  exact lt_brk i h1

/-- A value stays what it is. -/
theorem Rep.evo {ρ ρ' : List Nat} {h h' : Heap} {v : Obj} {a : Nat} (r : Rep ρ h v a) (i : Inv h) (e : Evo h h') (p : ρ <+: ρ') (l : Live h' a) : Rep ρ' h' v a := by
  obtain ⟨c, h1, h2⟩ := r
  obtain ⟨c', l⟩ := l
  obtain ⟨c2, h3, h4⟩ := e.same a c' (held_lt i h1) l
  cases holds_inj h1 h3
  exact ⟨c', l, by rw [← h4]; exact h2.mono p⟩

theorem reps_evo {α : Type} {f : α → Obj} {ρ ρ' : List Nat} {h h' : Heap} {ws : List α} {as : List Nat} (r : List.Forall₂ (fun e a => Rep ρ h (f e) a) ws as) (i : Inv h) (e : Evo h h')
    (p : ρ <+: ρ') (l : ∀ a ∈ as, Live h' a) : List.Forall₂ (fun e a => Rep ρ' h' (f e) a) ws as := by
  induction r with
  | nil => exact .nil
  | cons r _ ih => exact .cons (r.evo i e p (l _ (List.mem_cons_self ..))) (ih fun a ha => l a (List.mem_cons_of_mem _ ha))

theorem ThingOk.evo {K : Ctx} {ρ ρ' : List Nat} {h h' : Heap} {sm : Strman.SM Bytes} {t : Thing} {c : Cell} (k : ThingOk K ρ h t c) (i : Inv h) (e : Evo h h') (p : ρ <+: ρ')
    (l : CellOk h' sm c) : ThingOk K ρ' h' t c := by
  cases t with
  | tab es =>
    obtain ⟨t, rfl, k⟩ := k
    obtain ⟨ls, h1, h2⟩ := k.entries
    refine ⟨t, rfl, k.wf, k.nodup, k.kind, ls, h1, ?_⟩
    have hl : ∀ x ∈ ls, Live h' x.2.2 := fun x hx => (l.2 x (h1.mem_iff.mpr hx)).2.2.2
    clear h1 k
    induction h2 with
    | nil => exact .nil
    | cons r _ ih => exact .cons ⟨r.1.mono p, r.2.evo i e p (hl _ (List.mem_cons_self ..))⟩ (ih fun a ha => hl a (List.mem_cons_of_mem _ ha))
  | fn ps b env =>
    obtain ⟨q, ls, rfl, h1, h2, h3⟩ := k
    exact ⟨q, ls, rfl, reps_evo (f := fun e : Bytes × Obj => e.2) h1 i e p (fun a ha => l.2 a ha), h2, h3⟩
  | host n env =>
    obtain ⟨h0, ls, rfl, h1, h2⟩ := k
    exact ⟨h0, ls, rfl, reps_evo (f := fun e => e) h1 i e p (fun a ha => l.2 a ha), h2⟩

/-- The general way to a new state. -/
theorem Core.mono {K : Ctx} {ρ ρ' : List Nat} {s s' : St} {vm vm' : VM} (c : Core K ρ s vm) (i : VInv vm') (hr : vm'.state = .ready) (hc : (vm'.code, vm'.nfuns) = (vm.code, vm.nfuns))
    (hs : ∀ x i, FMap.get vm.strings.id2str i = some (x, true) → FMap.get vm'.strings.id2str i = some (x, true)) (e : Evo vm.heap vm'.heap) (p : ρ <+: ρ')
    (hl : ρ'.length = s'.store.length) (hn : ρ'.Nodup) (hw : ∀ a ∈ ρ', a < vm'.heap.brk)
    (ht : ∀ (l a : Nat) t d, ρ'[l]? = some a → s'.store[l]? = some t → Holds vm'.heap a d →
      (ρ[l]? = some a ∧ s.store[l]? = some t ∧ Holds vm.heap a d) ∨ ThingOk K ρ' vm'.heap t d)
    (hg : ∀ x i, FMap.get K.strings x = some i → (∀ a, FMap.get vm'.gsyms i = some a → Rep ρ' vm'.heap (Lang.globalVal x s') a) ∧
      (FMap.get vm'.gsyms i = none → Lang.globalVal x s' = .nil)) : Core K ρ' s' vm' where
  inv := i
  ready := hr
  base := hc.trans c.base
  strs x j h := hs _ _ (c.strs x j h)
  len := hl
  nodup := hn
  low := hw
  things l a t d h1 h2 h3 := by
    rcases ht l a t d h1 h2 h3 with ⟨k1, k2, k3⟩ | k
    · exact (c.things l a t d k1 k2 k3).evo c.inv.heap e p (i.cells a d h3)
    · exact k
  globals := hg

/-- Only new objects; store and global variables are the same. -/
theorem Core.ext {K : Ctx} {ρ : List Nat} {s s' : St} {vm vm' : VM} (c : Core K ρ s vm) (i : VInv vm') (hr : vm'.state = .ready) (hc : (vm'.code, vm'.nfuns) = (vm.code, vm.nfuns))
    (hs : ∀ x i, FMap.get vm.strings.id2str i = some (x, true) → FMap.get vm'.strings.id2str i = some (x, true)) (e : Ext vm.heap vm'.heap)
    (hg : vm'.gsyms = vm.gsyms) (h1 : s'.store = s.store) (h2 : s'.globals = s.globals) : Core K ρ s' vm' := by
  refine c.mono i hr hc hs e.evo (List.prefix_refl _) (by rw [h1]; exact c.len) c.nodup (fun a ha => lt_of_lt_of_le (c.low a ha) e.brk) ?_ ?_
  · intro l a t d k1 k2 k3
    rw [h1] at k2
    exact .inl ⟨k1, k2, e.same a d (c.low a (List.mem_of_getElem? k1)) k3⟩
  · intro x j hx
    obtain ⟨g1, g2⟩ := c.globals x j hx
    have e1 : Lang.globalVal x s' = Lang.globalVal x s := by unfold Lang.globalVal; rw [h2]
    rw [hg, e1]
    exact ⟨fun a ha => (g1 a ha).evo c.inv.heap e.evo (List.prefix_refl _) (i.gsyms (j, a) (by rw [hg]; exact FMap.mem_of_get ha)), g2⟩

theorem Sc.evo {K : Ctx} {ρ ρ' : List Nat} {vm vm' : VM} {sc : Scope} (h : Sc K ρ vm sc) (j : VInv vm) (i : VInv vm') (e : Evo vm.heap vm'.heap) (p : ρ <+: ρ')
    (hf : vm'.frames = vm.frames) (hr : vm'.rest = vm.rest) : Sc K ρ' vm' sc := by
  cases sc with
  | fn env =>
    obtain ⟨h0, ⟨f, fs, h1, h2⟩, ra, S, rs, n, h3, h4, h5⟩ := h
    refine ⟨h0, ⟨f, fs, hf.trans h1, reps_evo (f := fun e : Bytes × Obj => e.2) h2 j.heap e p fun a ha => i.frames f (by rw [hf, h1]; exact List.mem_cons_self ..) a ha⟩,
      ra, S, rs, n, hr.trans h3, ?_, h5⟩
    obtain ⟨c', l⟩ := i.rest (ra :: S) (by rw [hr, h3]; exact List.mem_cons_self ..) ra (List.mem_cons_self ..)
    obtain ⟨c2, g1, g2⟩ := e.same ra c' (held_lt j.heap h4) l
    cases holds_inj h4 g1
    cases c' with
    | atom o => cases g2; exact l
    | tab t => cases g2
    | clo a b d => cases g2
  | top => exact hf.trans h
  | inner => exact hf.trans h

end Buzz.Sim
