import Verif.SimOps
import Verif.Props.Compare

/-
Tables and functions: one instruction of compiled code each.
-/
namespace Buzz.Sim

open Buzz.Msg Buzz.Heap Buzz.Props Buzz.VM
open Buzz.Lang (Ast Thing Scope Shape St Host)
open Buzz.Parser (Ln)
open Buzz.Comp (CS EC Sub Loc Tabs comp bodyC binOp unOp)

variable {K : Ctx} {n : Nat} {R : Obj → St → VM → Prop}

section
variable (g : Good K) {vm0 : VM} {ρ0 : List Nat} {p q : Nat} {w v : Obj} {ws : List Obj} {s : St} {vm : VM}

/-- The state with a new location. -/
def withNew (t : Thing) (s : St) : St := { s with store := s.store ++ [t] }

theorem prefix_append {α : Type} (l : List α) (a : α) : l <+: l ++ [a] := ⟨[a], rfl⟩

/-- A new location. -/
theorem PtR.allocR {ρ as as' : List Nat} {ws' : List Obj} {vm' : VM} {a : Nat} {c : Cell} {t : Thing} (h : PtR K vm0 ρ0 p ws s vm ρ as) (i : VInv vm') (e : Ext vm.heap vm'.heap)
    (hr : vm'.state = vm.state) (hc : (vm'.code, vm'.nfuns) = (vm.code, vm.nfuns)) (hs : vm'.strings = vm.strings) (hg : vm'.gsyms = vm.gsyms) (hre : vm'.rest = vm.rest) (hf : vm'.frames = vm.frames)
    (hq : vm'.pc = (q : Int)) (ha : vm.heap.brk ≤ a) (hh : Holds vm'.heap a c) (ht : ThingOk K (ρ ++ [a]) vm'.heap t c) (hv : Img (ρ ++ [a]) v (objOf a c))
    (hst : vm'.stack = a :: (as' ++ vm0.stack)) (hrs : List.Forall₂ (fun w a => Rep ρ vm.heap w a) ws' as') :
    PtR K vm0 ρ0 q (v :: ws') (withNew t s) vm' (ρ ++ [a]) (a :: as') := by
  have hp := prefix_append ρ a
  have hnew : a ∉ ρ := fun hm => by
    have := h.core.low a hm
    omega
  exact {
    core := by
      refine h.core.mono i (hr.trans h.core.ready) hc (by rw [hs]; exact fun _ _ h => h) e.evo hp ?_ ?_ ?_ ?_ ?_
      · show (ρ ++ [a]).length = (s.store ++ [t]).length
        simp [h.core.len]
      · exact List.nodup_append.mpr ⟨h.core.nodup, List.nodup_singleton _, fun x hx y hy => by
          rw [List.mem_singleton] at hy
          subst hy
          rintro rfl
          exact hnew hx⟩
      · intro x hx
        rcases List.mem_append.mp hx with hx | hx
        · exact lt_of_lt_of_le (h.core.low x hx) e.brk
        · rw [List.mem_singleton] at hx
          subst hx
          exact held_lt i.heap hh
      · intro l b u d k1 k2 k3
        have k2 : (s.store ++ [t])[l]? = some u := k2
        by_cases hl : l < ρ.length
        · rw [List.getElem?_append_left hl] at k1
          rw [List.getElem?_append_left (by rw [← h.core.len]; exact hl)] at k2
          exact .inl ⟨k1, k2, e.same b d (h.core.low b (List.mem_of_getElem? k1)) k3⟩
        · have hl' := (List.getElem?_eq_some_iff.mp k1).1
          rw [List.length_append, List.length_singleton] at hl'
          have hl : l = ρ.length := by omega
          subst hl
          rw [List.getElem?_concat_length] at k1
          rw [h.core.len, List.getElem?_concat_length] at k2
          cases k1
          cases k2
          cases holds_inj k3 hh
          exact .inr ht
      · intro x j hx
        obtain ⟨g1, g2⟩ := h.core.globals x j hx
        rw [hg]
        exact ⟨fun b hb => (g1 b hb).evo h.core.inv.heap e.evo hp (i.gsyms (j, b) (by rw [hg]; exact FMap.mem_of_get hb)), g2⟩
    sc := h.sc.evo h.core.inv i e.evo hp hf hre
    pc := hq
    stack := hst
    reps := .cons ⟨c, hh, hv⟩ (reps_evo (f := fun w => w) hrs h.core.inv.heap e.evo hp fun x hx => i.stack x (by
      rw [hst]
      exact List.mem_cons_of_mem _ (List.mem_append_left _ hx)))
    rest := hre.trans h.rest
    tail := by rw [hf]; exact h.tail
    depth := by rw [hf]; exact h.depth
    evo := h.evo.trans e.evo
    pre := h.pre.trans hp 
    floor := h.floor }

theorem PtR.alloc {ρ as as' : List Nat} {ws' : List Obj} {vm' : VM} {a : Nat} {c : Cell} {t : Thing} (h : PtR K vm0 ρ0 p ws s vm ρ as) (i : VInv vm') (e : Ext vm.heap vm'.heap)
    (hr : vm'.state = vm.state) (hc : (vm'.code, vm'.nfuns) = (vm.code, vm.nfuns)) (hs : vm'.strings = vm.strings) (hg : vm'.gsyms = vm.gsyms) (hre : vm'.rest = vm.rest) (hf : vm'.frames = vm.frames)
    (hq : vm'.pc = (q : Int)) (ha : vm.heap.brk ≤ a) (hh : Holds vm'.heap a c) (ht : ThingOk K (ρ ++ [a]) vm'.heap t c) (hv : Img (ρ ++ [a]) v (objOf a c))
    (hst : vm'.stack = a :: (as' ++ vm0.stack)) (hrs : List.Forall₂ (fun w a => Rep ρ vm.heap w a) ws' as') : Pt K vm0 ρ0 q (v :: ws') (withNew t s) vm' :=
  ⟨_, _, h.allocR i e hr hc hs hg hre hf hq ha hh ht hv hst hrs⟩

include g

theorem pt_table (h : Pt K vm0 ρ0 p ws s vm) (l : LnAt K p (.op 30) q) (hq : q < K.code.length) :
    ∃ vm', K.step vm = .ok vm' ∧ Pt K vm0 ρ0 q (.tab s.store.length :: ws) (withNew (.tab []) s) vm' := by
  obtain ⟨l, rfl⟩ := l
  obtain ⟨vm1, ρ, as, h, hp, e, hv⟩ := h.go g l (op := .pusht) rfl
  have e2 : VM.exec K.E K.F vm1 .pusht = .ok { VM.push vm1 (.tab Table.new) with pc := ((p + 1 : Nat) : Int) } :=
    inc_op (p := p) (vm := VM.push vm1 (.tab Table.new)) g h.core.code h.pc hq hp
  refine ⟨_, e.trans e2, h.alloc (hv _ e2) (ext_new h.core.inv.heap (.tab Table.new)) rfl rfl rfl rfl rfl rfl rfl (le_refl _) (holds_new h.core.inv.heap _) ?_ ?_ ?_ h.reps⟩
  · refine ⟨_, rfl, Dict.new_wf (by decide), List.nodup_nil, .inl (by simp), [], ?_, .nil⟩
    rw [show Dict.entries (Table.new : Table.Tbl (Nat × Nat)) = [] from Dict.entries_new _]
  · refine ⟨vm1.heap.brk, ?_, rfl⟩
    rw [← h.core.len, List.getElem?_concat_length]
  · show _ :: vm1.stack = _
    rw [h.stack]
    rfl

/-- A function is made. -/
theorem pt_lam {k : Nat} {ps : List Bytes} {b : Ast} (h : Pt K vm0 ρ0 p ws s vm) (l : LnAt K p (.ref 40 k) q) (hq : q < K.code.length)
    (h1 : s.scope = .top → (Lang.self :: ps).Nodup → FunAt K (K.pos k : Int) [Lang.self] ps b)
    (h2 : ∀ env, s.scope = .fn env → (env.map (·.1) ++ ps).Nodup → FunAt K (K.pos k : Int) (env.map (·.1)) ps b) :
    Sim K n R (Lang.closure ps b) s vm (fun v s' vm' => Pt K vm0 ρ0 q (v :: ws) s' vm') := by
  obtain ⟨l, ha, hk, rfl⟩ := l
  obtain ⟨vm1, ρ, as, h, hp, e, hv⟩ := h.go g l (op := .pushl) rfl
  have hsz := g.size
  have e2 : VM.exec K.E K.F vm1 .pushl = .ok (pushL { vm1 with pc := ((p + 5 : Nat) : Int) } (K.pos k : Int)) := by
    refine (inc_arg g h.core.code h.pc ha hq hp).trans ?_
    rw [intOf_small g (by omega)]
    rfl
  have hi := hv _ e2
  cases hs : s.scope with
  | inner =>
    refine Sim.of_odd ?_
    show (match s.scope with | .inner => _ | .top => _ | .fn env => _) = _
    rw [hs]
  | top =>
    by_cases hn : (Lang.self :: ps).Nodup
    · have hf : vm1.frames = [] := by
        have := h.sc
        rw [hs] at this
        exact this
      refine Sim.of_ok (a := .clo s.store.length) (s' := withNew (.fn ps b [(Lang.self, .nil)]) s) ?_ ?_
      · show (match s.scope with | .inner => _ | .top => _ | .fn env => _) = _
        rw [hs]
        simp only
        rw [if_pos hn]
        rfl
      · have ep : pushL { vm1 with pc := ((p + 5 : Nat) : Int) } (K.pos k : Int) = pushC { vm1 with pc := ((p + 5 : Nat) : Int) } (K.pos k : Int) true := by
          unfold pushL
          show (match vm1.frames with | f :: _ => _ | [] => _) = _
          rw [hf]
        rw [ep] at e2 hi
        have i1 := h.core.inv.heap
        have i2 : Inv (newobj vm1.heap (.clo true (K.pos k) [])).1 := inv_alloc i1 (by intro b hb; cases hb)
        have hh1 : Holds (newobj (newobj vm1.heap (.clo true (K.pos k) [])).1 (.atom .nil)).1 vm1.heap.brk (.clo true (K.pos k) []) := holds_old i2 (holds_new i1 _)
        have hh2 : Holds (newobj (newobj vm1.heap (.clo true (K.pos k) [])).1 (.atom .nil)).1 (vm1.heap.brk + 1) (.atom .nil) := holds_new i2 _
        refine ⟨1, _, stepN_one (e.trans e2), h.alloc hi ?_ rfl rfl rfl rfl rfl rfl rfl (le_refl _) (c := .clo true (K.pos k) [vm1.heap.brk + 1]) ?_ ?_ ?_ ?_ h.reps⟩
        · refine ⟨by show vm1.heap.brk ≤ vm1.heap.brk + 1 + 1; omega, fun a c hl hh => ?_⟩
          rcases (holds_write hh1).mp hh with ⟨rfl, _⟩ | ⟨_, hh⟩
          · omega
          · rcases (holds_alloc i2).mp hh with ⟨rfl, _⟩ | hh
            · have hl : vm1.heap.brk + 1 < vm1.heap.brk := hl
              omega
            · rcases (holds_alloc i1).mp hh with ⟨rfl, _⟩ | hh
              · omega
              · exact hh
        · exact (holds_write hh1).mpr (.inl ⟨rfl, rfl⟩)
        · refine ⟨_, _, rfl, .cons ?_ .nil, by simp, h1 hs hn⟩
          exact ⟨_, (holds_write hh1).mpr (.inr ⟨by omega, hh2⟩), rfl⟩
        · refine ⟨vm1.heap.brk, ?_, rfl⟩
          rw [← h.core.len, List.getElem?_concat_length]
        · show _ :: vm1.stack = _
          rw [h.stack]
          rfl
    · refine Sim.of_odd ?_
      show (match s.scope with | .inner => _ | .top => _ | .fn env => _) = _
      rw [hs]
      simp only
      rw [if_neg hn]
  | fn env =>
    by_cases hn : (env.map (·.1) ++ ps).Nodup
    · obtain ⟨hlim, ⟨f, fs, hf, hreps⟩, _⟩ : Sc K ρ vm1 (.fn env) := by
        have := h.sc
        rw [hs] at this
        exact this
      refine Sim.of_ok (a := .clo s.store.length) (s' := withNew (.fn ps b env) s) ?_ ?_
      · show (match s.scope with | .inner => _ | .top => _ | .fn env => _) = _
        rw [hs]
        simp only
        rw [if_pos hn]
        rfl
      · have ep : pushL { vm1 with pc := ((p + 5 : Nat) : Int) } (K.pos k : Int) = VM.push { vm1 with pc := ((p + 5 : Nat) : Int) } (.clo true (K.pos k : Int) f.syms) := by
          unfold pushL
          show (match vm1.frames with | f :: _ => _ | [] => _) = _
          rw [hf]
        rw [ep] at e2 hi
        have ex := ext_new h.core.inv.heap (.clo true (K.pos k : Int) f.syms)
        refine ⟨1, _, stepN_one (e.trans e2), h.alloc hi ex rfl rfl rfl rfl rfl rfl rfl (le_refl _) (holds_new h.core.inv.heap _) ?_ ?_ ?_ h.reps⟩
        · refine ⟨_, _, rfl, ?_, fun hn => by rw [hn] at hlim; exact absurd hlim.1 (by simp), h2 env hs hn⟩
          exact reps_evo (f := fun e : Bytes × Obj => e.2) hreps h.core.inv.heap ex.evo (prefix_append _ _) fun a ha => hi.frames f (by
            show f ∈ vm1.frames
            rw [hf]
            exact List.mem_cons_self ..) a ha
        · refine ⟨vm1.heap.brk, ?_, rfl⟩
          rw [← h.core.len, List.getElem?_concat_length]
        · show _ :: vm1.stack = _
          rw [h.stack]
          rfl
    · refine Sim.of_odd ?_
      show (match s.scope with | .inner => _ | .top => _ | .fn env => _) = _
      rw [hs]
      simp only
      rw [if_neg hn]

/-! ### Reading and writing tables -/

omit g

theorem bind_eq {α β : Type} {x : Lang.Ev α} {f : α → Lang.Ev β} {s s' : St} {a : α} (h : x s = .ok a s') : (x >>= f) s = f a s' := by
  show (match x s with | .ok a s => f a s | .ret v s => .ret v s | .err e => .err e | .odd => .odd | .time => .time) = _
  rw [h]

theorem bind_odd {α β : Type} {x : Lang.Ev α} {f : α → Lang.Ev β} {s : St} (h : x s = .odd) : (x >>= f) s = .odd := by
  show (match x s with | .ok a s => f a s | .ret v s => .ret v s | .err e => .err e | .odd => .odd | .time => .time) = _
  rw [h]

theorem look_some {l : Nat} {s : St} {t : Thing} (h : s.store[l]? = some t) : Lang.look l s = .ok t s := by
  unfold Lang.look
  rw [h]

theorem look_none {l : Nat} {s : St} (h : s.store[l]? = none) : Lang.look l s = .odd := by
  unfold Lang.look
  rw [h]

/-- The machine's number of a string. -/
def strId (vm : VM) (x : Bytes) : Nat := (FMap.get vm.strings.str2id x).getD 0

/-- The machine's value of a key. -/
def keyOf (vm : VM) : Obj → Obj
  | .str _ x => .str (strId vm x) x
  | k => k

/-- Keys of tables: integers and strings. -/
def TabKey (k : Obj) : Prop := (∃ v, k = .int v) ∨ ∃ x, k = .str 0 x

theorem keyOf_inj {k k' : Obj} (h : TabKey k) (h' : TabKey k') : keyOf vm k = keyOf vm k' ↔ k = k' := by
  constructor
  · intro e
    rcases h with ⟨v, rfl⟩ | ⟨x, rfl⟩
    · rcases h' with ⟨v', rfl⟩ | ⟨x', rfl⟩
      · exact e
      · cases e
    · rcases h' with ⟨v', rfl⟩ | ⟨x', rfl⟩
      · cases e
      · have e : Obj.str (strId vm x) x = Obj.str (strId vm x') x' := e
        rw [Obj.str.injEq] at e
        rw [e.2]
  · rintro rfl
    rfl

theorem keyOf_of {ρ : List Nat} {a : Nat} {k o : Obj} (i : VInv vm) (ha : Holds vm.heap a (.atom o)) (hi : Img ρ k o) (hk : TabKey k) : o = keyOf vm k := by
  rcases hk with ⟨v, rfl⟩ | ⟨x, rfl⟩
  · exact hi
  · obtain ⟨_, _, j, rfl⟩ := hi
    have hk : Strman.get vm.strings j = some x := i.cells a _ ha
    unfold Strman.get at hk
    cases hj : FMap.get vm.strings.id2str j with
    | none => rw [hj] at hk; cases hk
    | some e =>
      rw [hj] at hk
      obtain ⟨y, b⟩ := e
      obtain rfl : x = y := (Option.some.inj hk).symm
      show _ = Obj.str (strId vm x) x
      unfold strId
      rw [i.strings.back j x b hj]
      rfl

theorem same_key {ρ : List Nat} {k o : Obj} (hk : Lang.sameKind k k = true) (hi : Img ρ k o) : TabKey k := by
  cases k with
  | int v => exact .inl ⟨v, rfl⟩
  | str i x => obtain ⟨rfl, _⟩ := hi; exact .inr ⟨x, rfl⟩
  | _ => cases hk

/-- The keys of the same kind as `k`. -/
def kindSet (vm : VM) : Obj → Obj → Prop
  | .int _ => IsInt
  | _ => fun o => ∃ x, o = .str (strId vm x) x ∧ Obj.CStr x

theorem kind_homog {sc : Bytes → Bytes → Int} (law : Obj.StrcmpLaw sc) (k : Obj) : Table.Homog sc (kindSet vm k) := by
  cases k with
  | int v => exact C13_int_keys _
  | _ => exact C13_string_keys law (strId vm)

theorem kind_mem {ρ : List Nat} {k k' o : Obj} (hk : Lang.sameKind k k' = true) (hi : Img ρ k' o) (he : o = keyOf vm k') : kindSet vm k o := by
  cases k with
  | int v =>
    cases k' with
    | int v' => exact ⟨v', hi⟩
    | _ => cases hk
  | str j x =>
    cases k' with
    | str j' x' => exact ⟨x', he, hi.2.1⟩
    | _ => cases hk
  | _ => cases hk

/-- The entries of the machine's table, one by one. -/
theorem tab_rel {ρ : List Nat} {es : List (Obj × Obj)} {t : Table.Tbl (Nat × Nat)} (i : VInv vm) (hc : CellOk vm.heap vm.strings (.tab t)) (h : TabOk ρ vm.heap es t) :
    (∀ e ∈ es, TabKey e.1) ∧
    ∃ l, (Dict.entries t).Perm l ∧ List.Forall₂ (fun e e' => e'.1 = keyOf vm e.1 ∧ Img ρ e.1 e'.1 ∧ Rep ρ vm.heap e.2 e'.2.2) es l := by
  have hk : ∀ e ∈ es, TabKey e.1 := by
    intro e he
    rcases h.kind with k | k
    · exact .inl (k e he)
    · exact .inr (k e he)
  obtain ⟨l, h1, h2⟩ := h.entries
  refine ⟨hk, l, h1, ?_⟩
  have hl : ∀ e' ∈ l, Holds vm.heap e'.2.1 (.atom e'.1) := fun e' he' => (hc.2 e' (h1.mem_iff.mpr he')).2.2.1
  clear h1 h hc
  induction h2 with
  | nil => exact .nil
  | cons r _ ih =>
    refine .cons ⟨keyOf_of i (hl _ (List.mem_cons_self ..)) r.1 (hk _ (List.mem_cons_self ..)), r.1, r.2⟩ (ih (fun e he => hk e (List.mem_cons_of_mem _ he)) ?_)
    exact fun e he => hl e (List.mem_cons_of_mem _ he)

theorem entryOf_none {k : Obj} {es : List (Obj × Obj)} (h : ∀ e ∈ es, e.1 ≠ k) : Lang.entryOf k es = none := by
  induction es with
  | nil => rfl
  | cons e es ih =>
    show (if e.1 = k then _ else _) = _
    rw [if_neg (h e (List.mem_cons_self ..)), ih fun e he => h e (List.mem_cons_of_mem _ he)]

theorem entryOf_some {k : Obj} {es : List (Obj × Obj)} (hn : (es.map (·.1)).Nodup) {e : Obj × Obj} (he : e ∈ es) (hk : e.1 = k) : Lang.entryOf k es = some e.2 := by
  induction es with
  | nil => cases he
  | cons e' es ih =>
    show (if e'.1 = k then _ else _) = _
    rw [List.map_cons, List.nodup_cons] at hn
    rcases List.mem_cons.mp he with rfl | he
    · rw [if_pos hk]
    · rw [if_neg, ih hn.2 he]
      rintro rfl
      exact hn.1 (hk ▸ List.mem_map_of_mem he)

theorem forall2_mem_right {α β : Type} {P : α → β → Prop} {as : List α} {bs : List β} (h : List.Forall₂ P as bs) {b : β} (hb : b ∈ bs) : ∃ a ∈ as, P a b := by
  induction h with
  | nil => cases hb
  | cons r _ ih =>
    rcases List.mem_cons.mp hb with rfl | hb
    · exact ⟨_, List.mem_cons_self .., r⟩
    · obtain ⟨a, h1, h2⟩ := ih hb
      exact ⟨a, List.mem_cons_of_mem _ h1, h2⟩

theorem forall2_mem_left {α β : Type} {P : α → β → Prop} {as : List α} {bs : List β} (h : List.Forall₂ P as bs) {a : α} (ha : a ∈ as) : ∃ b ∈ bs, P a b := by
  induction h with
  | nil => cases ha
  | cons r _ ih =>
    rcases List.mem_cons.mp ha with rfl | ha
    · exact ⟨_, List.mem_cons_self .., r⟩
    · obtain ⟨b, h1, h2⟩ := ih ha
      exact ⟨b, List.mem_cons_of_mem _ h1, h2⟩

theorem forall2_filter {α β : Type} {P : α → β → Prop} {f : α → Bool} {f' : β → Bool} {as : List α} {bs : List β} (h : List.Forall₂ P as bs)
    (hf : ∀ a ∈ as, ∀ b, P a b → f' b = f a) : List.Forall₂ P (as.filter f) (bs.filter f') := by
  induction h with
  | nil => exact .nil
  | @cons a b as bs r _ ih =>
    have := hf a (List.mem_cons_self ..) b r
    have ih := ih fun a ha => hf a (List.mem_cons_of_mem _ ha)
    cases hfa : f a with
    | true =>
      rw [List.filter_cons_of_pos hfa, List.filter_cons_of_pos (by rw [this, hfa])]
      exact .cons r ih
    | false =>
      rw [List.filter_cons_of_neg (by simp [hfa]), List.filter_cons_of_neg (by simp [this, hfa])]
      exact ih

/-- A table's location holds a table. -/
theorem tab_cell {ρ : List Nat} {l a : Nat} {c : Cell} (i : VInv vm) (ha : Holds vm.heap a c) (hi : Img ρ (.tab l) (objOf a c)) : ρ[l]? = some a ∧ ∃ t, c = .tab t := by
  obtain ⟨b, h1, h2⟩ := hi
  have := i.cells a c ha
  cases c with
  | tab t => cases h2; exact ⟨h1, t, rfl⟩
  | clo x y z => cases h2
  | atom o =>
    have h2 : o = .tab b := h2
    subst h2
    exact this.elim

theorem clo_cell {ρ : List Nat} {l a : Nat} {c : Cell} (i : VInv vm) (ha : Holds vm.heap a c) (hi : Img ρ (.clo l) (objOf a c)) : ρ[l]? = some a ∧ ∃ n r es, c = .clo n r es := by
  obtain ⟨b, h1, h2⟩ := hi
  have := i.cells a c ha
  cases c with
  | clo x y z => cases h2; exact ⟨h1, x, y, z, rfl⟩
  | tab t => cases h2
  | atom o =>
    have h2 : o = .clo b := h2
    subst h2
    exact this.elim

theorem not_tab_cell {ρ : List Nat} {a : Nat} {c : Cell} (hi : Img ρ w (objOf a c)) (hw : ∀ l, w ≠ .tab l) : ∀ t, c ≠ .tab t := by
  rintro t rfl
  have hi : Img ρ w (.tab a) := hi
  cases w with
  | tab l => exact hw l rfl
  | clo l => obtain ⟨_, _, h⟩ := hi; cases h
  | str j x => obtain ⟨_, _, _, h⟩ := hi; cases h
  | _ => cases hi

theorem not_clo_cell {ρ : List Nat} {a : Nat} {c : Cell} (hi : Img ρ w (objOf a c)) (hw : ∀ l, w ≠ .clo l) : ∀ x y z, c ≠ .clo x y z := by
  rintro x y z rfl
  have hi : Img ρ w (.clo a) := hi
  cases w with
  | clo l => exact hw l rfl
  | tab l => obtain ⟨_, _, h⟩ := hi; cases h
  | str j x => obtain ⟨_, _, _, h⟩ := hi; cases h
  | _ => cases hi

theorem atom_cell {ρ : List Nat} {a : Nat} {c : Cell} (hi : Img ρ w (objOf a c)) (h1 : ∀ l, w ≠ .tab l) (h2 : ∀ l, w ≠ .clo l) : c = .atom (objOf a c) := by
  cases c with
  | atom o => rfl
  | tab t => exact absurd rfl (not_tab_cell hi h1 t)
  | clo x y z => exact absurd rfl (not_clo_cell hi h2 x y z)

/-- Reading a table, on a machine with the key and the table on its stack. -/
theorem tget_core {ρ : List Nat} {a b : Nat} {c d : Cell} {st : List Nat} {t k : Obj} (law : Obj.StrcmpLaw K.E.sc) (h : Core K ρ s vm) (hst : vm.stack = a :: b :: st)
    (h1 : Holds vm.heap a c) (h2 : Img ρ k (objOf a c)) (h3 : Holds vm.heap b d) (h4 : Img ρ t (objOf b d)) :
    match Lang.tabGet t k s with
    | .ok v s' => s' = s ∧ ((∃ e, tget K.E vm = .ok { vm with stack := e :: st } ∧ Rep ρ vm.heap v e) ∨ (v = .nil ∧ tget K.E vm = .ok (pushNil { vm with stack := st })))
    | .err e => e = .type ∧ tget K.E vm = .ok (setErr vm .type)
    | .odd => True
    | _ => False := by
  have p1 : VM.peek vm 1 = .ok (objOf a c) := by
    obtain ⟨_, g1, _, _, _, g5⟩ := VM.At.peekCell (vm := vm) (i := 0) (c := c) ⟨a, by rw [hst]; rfl, h1⟩
    rw [hst] at g1
    cases g1
    exact g5
  have p2 : VM.peekCell vm 2 = .ok d := by
    obtain ⟨_, _, _, _, g4, _⟩ := VM.At.peekCell (vm := vm) (i := 1) (c := d) ⟨b, by rw [hst]; rfl, h3⟩
    exact g4
  have hpop : popN vm 2 = { vm with stack := st } := by
    unfold popN
    rw [hst]
    rfl
  have e2 : tget K.E vm = tget K.E vm := rfl
  conv_rhs at e2 => unfold tget need
  rw [if_neg (by rw [hst]; simp only [List.length_cons]; omega), p2, Res.ok_bind] at e2
  by_cases ht : ∃ l, t = .tab l
  · obtain ⟨l, rfl⟩ := ht
    obtain ⟨hl, tb, rfl⟩ := tab_cell h.inv h3 h4
    simp only [p1, Res.ok_bind] at e2
    cases hs : s.store[l]? with
    | none =>
      rw [show Lang.tabGet (.tab l) k s = .odd from bind_odd (look_none hs)]
      trivial
    | some th =>
      cases th with
      | fn ps b env => rw [show Lang.tabGet (.tab l) k s = .odd from bind_eq (look_some hs)]; trivial
      | host n env => rw [show Lang.tabGet (.tab l) k s = .odd from bind_eq (look_some hs)]; trivial
      | tab es =>
        have htg : Lang.tabGet (.tab l) k s = (if Lang.sameKind k k && es.all (fun e => Lang.sameKind k e.1) then pure ((Lang.entryOf k es).getD .nil) else Lang.odd : Lang.Ev Obj) s :=
          bind_eq (look_some hs)
        by_cases hk : (Lang.sameKind k k && es.all (fun e => Lang.sameKind k e.1)) = true
        · rw [if_pos hk] at htg
          rw [Bool.and_eq_true, List.all_eq_true] at hk
          obtain ⟨hk1, hk2⟩ := hk
          obtain ⟨_, ⟨⟩, hok⟩ := h.things l b _ _ hl hs h3
          obtain ⟨hkeys, L, hperm, hL⟩ := tab_rel h.inv (h.inv.cells b _ h3) hok
          have hkk := same_key hk1 h2
          have hca : c = .atom (objOf a c) := atom_cell h2 (by rintro l rfl; cases hk1) (by rintro l rfl; cases hk1)
          have hko : objOf a c = keyOf vm k := keyOf_of h.inv (by rw [← hca]; exact h1) h2 hkk
          have hkey : isKey (objOf a c) = true := by
            rcases hkk with ⟨v, rfl⟩ | ⟨x, rfl⟩
            · rw [hko]; rfl
            · rw [hko]; rfl
          have hKeys : Table.Keys (kindSet vm k) tb := by
            intro e' he'
            obtain ⟨e0, he0, r1, r2, _⟩ := forall2_mem_right hL (hperm.mem_iff.mp he')
            exact kind_mem (hk2 e0 he0) r2 r1
          have hget := Table.get_spec (kind_homog law k) hok.wf hKeys (kind_mem hk1 h2 hko)
          rw [if_pos hkey, hget, Res.ok_bind] at e2
          rw [htg]
          refine ⟨rfl, ?_⟩
          cases hfind : (Dict.entries tb).find? (fun e => Table.eqd (objOf a c) e.1) with
          | some e' =>
            have hmem := List.mem_of_find?_eq_some hfind
            have heq : Table.eqd (objOf a c) e'.1 = true := by simpa using List.find?_some hfind
            obtain ⟨e0, he0, r1, r2, r3⟩ := forall2_mem_right hL (hperm.mem_iff.mp hmem)
            have : e0.1 = k := by
              have heq : objOf a c = e'.1 := by simpa [Table.eqd] using heq
              rw [hko, r1] at heq
              exact ((keyOf_inj hkk (hkeys e0 he0)).mp heq).symm
            rw [entryOf_some hok.nodup he0 this]
            rw [hfind] at e2
            refine .inl ⟨e'.2.2, ?_, r3⟩
            rw [e2]
            show Res.ok (pushAddr (popN vm 2) e'.2.2) = _
            rw [hpop]
            rfl
          | none =>
            have hno : Lang.entryOf k es = none := by
              refine entryOf_none ?_
              rintro e0 he0 rfl
              obtain ⟨e', he', r1, r2, r3⟩ := forall2_mem_left hL he0
              rw [List.find?_eq_none] at hfind
              refine hfind e' (hperm.mem_iff.mpr he') ?_
              simp [Table.eqd, hko, r1]
            rw [hno]
            rw [hfind] at e2
            refine .inr ⟨rfl, ?_⟩
            rw [e2]
            show Res.ok (pushNil (popN vm 2)) = _
            rw [hpop]
        · rw [if_neg hk] at htg
          rw [htg]
          trivial
  · have hne : ∀ l, t ≠ .tab l := fun l e => ht ⟨l, e⟩
    have hd := not_tab_cell h4 hne
    have htg : Lang.tabGet t k s = .err .type := by
      cases t with
      | tab l => exact absurd rfl (hne l)
      | _ => rfl
    rw [htg]
    refine ⟨rfl, ?_⟩
    rw [e2]
    cases d with
    | tab t => exact absurd rfl (hd t)
    | _ => rfl

include g

theorem pt_tget {t k : Obj} (h : Pt K vm0 ρ0 p (k :: t :: ws) s vm) (l : LnAt K p (.op 32) q) (hq : q < K.code.length) :
    Sim K n R (Lang.tabGet t k) s vm (fun v s' vm' => Pt K vm0 ρ0 q (v :: ws) s' vm') := by
  obtain ⟨l, rfl⟩ := l
  obtain ⟨vm1, ρ, as, h, hp, e, hv⟩ := h.go g l (op := .tget) rfl
  obtain ⟨a, b, as', c, d, rfl, rs, h1, h2, h3, h4, hst⟩ := peek_two g h
  have e2 : VM.exec K.E K.F vm1 .tget = (tget K.E vm1 >>= fun vm => ifReady vm (fun vm => incPc vm pure)) := rfl
  have key := tget_core g.law h.core hst h1 h2 h3 h4
  cases ht : Lang.tabGet t k s with
  | ok v s' =>
    rw [ht] at key
    obtain ⟨rfl, ⟨e', k1, k2⟩ | ⟨rfl, k1⟩⟩ := key
    · refine Sim.of_ok ht ?_
      have e3 : VM.exec K.E K.F vm1 .tget = .ok { vm1 with pc := ((p + 1 : Nat) : Int), stack := e' :: (as' ++ vm0.stack) } := by
        rw [e2, k1, Res.ok_bind]
        unfold ifReady
        rw [if_pos (show ({ vm1 with stack := e' :: (as' ++ vm0.stack) } : VM).state = _ from h.core.ready)]
        exact inc_op (p := p) (vm := { vm1 with stack := e' :: (as' ++ vm0.stack) }) g h.core.code h.pc hq hp
      exact ⟨1, _, stepN_one (e.trans e3), h.next (hv _ e3) (Ext.refl _) rfl rfl rfl rfl rfl rfl rfl (as' := e' :: as') rfl fun _ _ => .cons k2 rs⟩
    · refine Sim.of_ok ht ?_
      have e3 : VM.exec K.E K.F vm1 .tget = .ok (VM.push { vm1 with pc := ((p + 1 : Nat) : Int), stack := as' ++ vm0.stack } (.atom .nil)) := by
        rw [e2, k1, Res.ok_bind]
        unfold ifReady
        rw [if_pos (show (pushNil { vm1 with stack := as' ++ vm0.stack }).state = _ from h.core.ready)]
        exact inc_op (p := p) (vm := VM.push { vm1 with stack := as' ++ vm0.stack } (.atom .nil)) g h.core.code h.pc hq hp
      exact ⟨1, _, stepN_one (e.trans e3), h.pushed g (hv _ e3) rfl rs fun _ => rfl⟩
  | ret v s' => rw [ht] at key; exact key.elim
  | err er =>
    rw [ht] at key
    obtain ⟨rfl, k1⟩ := key
    refine Sim.of_err ht ?_
    have e3 : VM.exec K.E K.F vm1 .tget = .ok (setErr vm1 .type) := by
      rw [e2, k1, Res.ok_bind]
      rfl
    exact ⟨1, _, stepN_one (e.trans e3), rfl, rfl⟩
  | odd => exact Sim.of_odd ht
  | time => rw [ht] at key; exact key.elim

omit g in
/-- The state with another content of a location. -/
def withThing (l : Nat) (t : Thing) (s : St) : St := { s with store := s.store.set l t }

/-- The entries after a write. -/
def putEntries (k : Obj) (v : Option Obj) (es : List (Obj × Obj)) : List (Obj × Obj) := es.filter (fun e => e.1 ≠ k) ++ (v.map (fun v => (k, v))).toList

theorem tab_put {ρ : List Nat} {es : List (Obj × Obj)} {tb : Table.Tbl (Nat × Nat)} {k k' : Obj} {ka : Nat} {v : Option (Obj × Nat)} (i : VInv vm)
    (hc : CellOk vm.heap vm.strings (.tab tb)) (h : TabOk ρ vm.heap es tb) (hk : Lang.sameKind k k = true) (hes : ∀ e ∈ es, Lang.sameKind k e.1 = true)
    (ha : Holds vm.heap ka (.atom k')) (hi : Img ρ k k') (hv : ∀ x, v = some x → Rep ρ vm.heap x.1 x.2) :
    ∃ t', Table.put K.E.sc tb k' (v.map (fun x => (ka, x.2))) = .ok t' ∧ TabOk ρ vm.heap (putEntries k (v.map (·.1)) es) t' := by
  obtain ⟨hkeys, L, hperm, hL⟩ := tab_rel i hc h
  have hkk := same_key hk hi
  have hko := keyOf_of i ha hi hkk
  have hKeys : Table.Keys (kindSet vm k) tb := by
    intro e' he'
    obtain ⟨e0, he0, r1, r2, _⟩ := forall2_mem_right hL (hperm.mem_iff.mp he')
    exact kind_mem (hes e0 he0) r2 r1
  obtain ⟨t', h1, h2, _, h3⟩ := Table.put_spec (kind_homog g.law k) h.wf hKeys (kind_mem hk hi hko) (v.map (fun x => (ka, x.2)))
  refine ⟨t', h1, h2, ?_, ?_, (L.filter (fun e => !Table.eqd k' e.1)) ++ ((v.map (fun x => (ka, x.2))).map (fun v => (k', v))).toList, ?_, ?_⟩
  · unfold putEntries
    rw [List.map_append]
    refine List.nodup_append.mpr ⟨h.nodup.sublist (List.filter_sublist.map _), ?_, ?_⟩
    · cases v with
      | none => exact List.nodup_nil
      | some x => exact List.nodup_singleton _
    · intro a ha b hb
      cases v with
      | none => cases hb
      | some x =>
        have hb : b ∈ [k] := hb
        rw [List.mem_singleton] at hb
        subst hb
        obtain ⟨e, he, rfl⟩ := List.mem_map.mp ha
        simpa using (List.mem_filter.mp he).2
  · have hmem : ∀ e ∈ putEntries k (v.map (·.1)) es, e ∈ es ∨ e.1 = k := by
      intro e he
      rcases List.mem_append.mp he with he | he
      · exact .inl (List.mem_of_mem_filter he)
      · cases v with
        | none => cases he
        | some x =>
          have he : e ∈ [(k, x.1)] := he
          rw [List.mem_singleton] at he
          subst he
          exact .inr rfl
    rcases hkk with ⟨v', rfl⟩ | ⟨x', rfl⟩
    · refine .inl fun e he => ?_
      rcases hmem e he with he | he
      · have := hes e he
        cases hek : e.1 with
        | int w => exact ⟨w, rfl⟩
        | _ => rw [hek] at this; cases this
      · exact ⟨_, he⟩
    · refine .inr fun e he => ?_
      rcases hmem e he with he | he
      · have := hes e he
        rcases hkeys e he with ⟨w, hw⟩ | hw
        · rw [hw] at this; cases this
        · exact hw
      · exact ⟨_, he⟩
  · exact h3.trans ((hperm.filter _).append_right _)
  · refine List.rel_append ?_ ?_
    · refine List.Forall₂.imp (R := fun e e' => e'.1 = keyOf vm e.1 ∧ Img ρ e.1 e'.1 ∧ Rep ρ vm.heap e.2 e'.2.2) (fun e e' r => ⟨r.2.1, r.2.2⟩)
        (forall2_filter (f := fun e => decide (e.1 ≠ k)) hL ?_)
      intro e he e' r
      have : k' = e'.1 ↔ k = e.1 := by
        rw [hko, r.1]
        exact keyOf_inj hkk (hkeys e he)
      by_cases hke : e.1 = k
      · simp [Table.eqd, this.mpr hke.symm, hke]
      · simp [Table.eqd, this, hke, Ne.symm hke]
    · cases v with
      | none => exact .nil
      | some x => exact .cons ⟨hi, hv x rfl⟩ .nil

/-- Another content of a table. -/
theorem PtR.update {ρ as as' : List Nat} {ws' : List Obj} {vm' : VM} {l ta : Nat} {tb tb' : Table.Tbl (Nat × Nat)} {es' : List (Obj × Obj)} (h : PtR K vm0 ρ0 p ws s vm ρ as) (i : VInv vm')
    (hl : ρ[l]? = some ta) (hta : Holds vm.heap ta (.tab tb)) (hw : vm'.heap = write vm.heap ta (.tab tb')) (ok : TabOk ρ vm.heap es' tb')
    (hr : vm'.state = vm.state) (hc : (vm'.code, vm'.nfuns) = (vm.code, vm.nfuns)) (hs : vm'.strings = vm.strings) (hg : vm'.gsyms = vm.gsyms) (hre : vm'.rest = vm.rest) (hf : vm'.frames = vm.frames)
    (hq : vm'.pc = (q : Int)) (hst : vm'.stack = as' ++ vm0.stack) (hrs : List.Forall₂ (fun w a => Rep ρ vm.heap w a) ws' as') :
    Pt K vm0 ρ0 q ws' (withThing l (.tab es') s) vm' := by
  have e : Evo vm.heap vm'.heap := by
    rw [hw]
    exact evo_write hta
  have hta' : Holds vm'.heap ta (.tab tb') := by
    rw [hw]
    exact (holds_write hta).mpr (.inl ⟨rfl, rfl⟩)
  have hp := List.prefix_refl ρ
  refine ⟨ρ, as', ?_⟩
  exact {
    core := by
      refine h.core.mono i (hr.trans h.core.ready) hc (by rw [hs]; exact fun _ _ h => h) e hp ?_ h.core.nodup (fun a ha => lt_of_lt_of_le (h.core.low a ha) e.brk) ?_ ?_
      · show _ = (s.store.set l _).length
        rw [List.length_set]
        exact h.core.len
      · intro m b u d k1 k2 k3
        have k2 : (s.store.set l (.tab es'))[m]? = some u := k2
        by_cases hm : l = m
        · subst hm
          rw [hl] at k1
          cases k1
          have hlt : l < s.store.length := by
            rw [← h.core.len]
            exact (List.getElem?_eq_some_iff.mp hl).1
          rw [List.getElem?_set_self hlt] at k2
          cases k2
          cases holds_inj k3 hta'
          refine .inr ?_
          exact ThingOk.evo (K := K) (t := .tab es') ⟨_, rfl, ok⟩ h.core.inv.heap e hp (i.cells ta _ hta')
        · rw [List.getElem?_set_ne hm] at k2
          refine .inl ⟨k1, k2, ?_⟩
          rw [hw] at k3
          rcases (holds_write hta).mp k3 with ⟨rfl, _⟩ | ⟨_, k3⟩
          · exact absurd ((List.getElem?_inj (List.getElem?_eq_some_iff.mp hl).1 h.core.nodup).mp (hl.trans k1.symm)) hm
          · exact k3
      · intro x j hx
        obtain ⟨g1, g2⟩ := h.core.globals x j hx
        rw [hg]
        exact ⟨fun b hb => (g1 b hb).evo h.core.inv.heap e hp (i.gsyms (j, b) (by rw [hg]; exact FMap.mem_of_get hb)), g2⟩
    sc := h.sc.evo h.core.inv i e hp hf hre
    pc := hq
    stack := hst
    reps := reps_evo (f := fun w => w) hrs h.core.inv.heap e hp fun x hx => i.stack x (by
      rw [hst]
      exact List.mem_append_left _ hx)
    rest := hre.trans h.rest
    tail := by rw [hf]; exact h.tail
    depth := by rw [hf]; exact h.depth
    evo := h.evo.trans e
    pre := h.pre
    floor := h.floor }

theorem peek_three {x y z : Obj} {ρ as : List Nat} {vm : VM} (h : PtR K vm0 ρ0 p (z :: y :: x :: ws) s vm ρ as) : ∃ a b d as' c1 c2 c3, as = a :: b :: d :: as' ∧
    List.Forall₂ (fun w a => Rep ρ vm.heap w a) ws as' ∧ (Holds vm.heap a c1 ∧ Img ρ z (objOf a c1)) ∧ (Holds vm.heap b c2 ∧ Img ρ y (objOf b c2)) ∧
    (Holds vm.heap d c3 ∧ Img ρ x (objOf d c3)) ∧ vm.stack = a :: b :: d :: (as' ++ vm0.stack) := by
  cases hr : h.reps with
  | @cons _ a _ as' r rs =>
    cases rs with
    | @cons _ b _ as' r' rs =>
      cases rs with
      | @cons _ d _ as' r'' rs =>
        obtain ⟨c1, h1⟩ := r
        obtain ⟨c2, h2⟩ := r'
        obtain ⟨c3, h3⟩ := r''
        exact ⟨a, b, d, as', c1, c2, c3, rfl, rs, h1, h2, h3, h.stack⟩

omit g in
theorem isKey_img {ρ : List Nat} {k o : Obj} (h : Img ρ k o) : isKey o = isKey k := by
  cases k with
  | tab l => obtain ⟨a, _, rfl⟩ := h; rfl
  | clo l => obtain ⟨a, _, rfl⟩ := h; rfl
  | str j x => obtain ⟨_, _, j, rfl⟩ := h; rfl
  | _ => cases h; rfl

/-- The meaning of a write to a table, by cases. -/
def putOut (l : Nat) (es : List (Obj × Obj)) (k v : Obj) (s : St) : Lang.Out Unit :=
  match v with
  | .nil => .ok () (withThing l (.tab (putEntries k none es)) s)
  | .clo f =>
    match s.store[f]? with
    | none => .odd
    | some t =>
      match Lang.bindSelf (.tab l) t with
      | some c => .ok () (withThing l (.tab (putEntries k (some (.clo s.store.length)) es)) (withNew c s))
      | none => .odd
  | v => .ok () (withThing l (.tab (putEntries k (some v) es)) s)

omit g in
theorem tabPut_eq {l : Nat} {es : List (Obj × Obj)} {k : Obj} (hs : s.store[l]? = some (.tab es)) (hk : isKey k = true)
    (hh : (Lang.sameKind k k && es.all (fun e => Lang.sameKind k e.1)) = true) : Lang.tabPut (.tab l) k v s = putOut l es k v s := by
  refine (bind_eq (look_some hs)).trans ?_
  simp only
  rw [if_pos hk, if_pos hh]
  cases v with
  | nil =>
    show Lang.Out.ok () _ = Lang.Out.ok () _
    simp [putEntries, withThing]
  | clo f =>
    show (Lang.look f >>= _) s = match s.store[f]? with | none => _ | some t => _
    cases hf : s.store[f]? with
    | none => exact bind_odd (look_none hf)
    | some t =>
      refine (bind_eq (look_some hf)).trans ?_
      show _ = match Lang.bindSelf (.tab l) t with | some c => _ | none => _
      cases hb : Lang.bindSelf (.tab l) t with
      | none => rfl
      | some c => rfl
  | _ => rfl

/-- Writing a table, apart from the instruction. -/
theorem ptr_tput {t k v : Obj} {ρ as : List Nat} {vm1 : VM} (h : PtR K vm0 ρ0 p (v :: k :: t :: ws) s vm1 ρ as) (hv : ∀ vm', tput K.E vm1 = .ok vm' → VInv vm') :
    match Lang.tabPut t k v s with
    | .ok _ s' => ∃ vm', tput K.E vm1 = .ok vm' ∧ Pt K vm0 ρ0 p ws s' vm'
    | .err e => ∃ vm', tput K.E vm1 = .ok vm' ∧ vm'.state = .error ∧ vm'.error = e
    | .odd => True
    | _ => False := by
  obtain ⟨r, hr⟩ : ∃ r, r = tput K.E vm1 := ⟨_, rfl⟩
  rw [← hr] at hv ⊢
  have e2 := hr
  clear hr
  obtain ⟨va, ka, ta, as', vc, kc, tc, rfl, rs, ⟨v1, v2⟩, ⟨k1, k2⟩, ⟨t1, t2⟩, hst⟩ := peek_three g h
  have pv1 := (peek_at g (vm := vm1) (i := 0) (by rw [hst]; rfl) v1).1
  have pv2 := (peek_at g (vm := vm1) (i := 0) (by rw [hst]; rfl) v1).2.1
  have pk1 : peekAddr vm1 2 = .ok ka := (peek_at g (vm := vm1) (i := 1) (by rw [hst]; rfl) k1).1
  have pk2 : VM.peek vm1 2 = .ok (objOf ka kc) := (peek_at g (vm := vm1) (i := 1) (by rw [hst]; rfl) k1).2.2
  have pt1 : peekAddr vm1 3 = .ok ta := (peek_at g (vm := vm1) (i := 2) (by rw [hst]; rfl) t1).1
  have pt2 : VM.peekCell vm1 3 = .ok tc := (peek_at g (vm := vm1) (i := 2) (by rw [hst]; rfl) t1).2.1
  simp only [Nat.zero_add, Nat.cast_one] at pv1 pv2
  have hpop : popN vm1 3 = { vm1 with stack := as' ++ vm0.stack } := by
    unfold popN
    rw [hst]
    rfl
  unfold tput at e2
  rw [need_of g (by rw [hst]; simp; omega), pt1, Res.ok_bind, pt2, Res.ok_bind] at e2
  by_cases ht : ∃ l, t = .tab l
  · obtain ⟨l, rfl⟩ := ht
    obtain ⟨hl, tb, rfl⟩ := tab_cell h.core.inv t1 t2
    simp only [pv1, pv2, pk1, pk2, hpop, Res.ok_bind] at e2
    cases hs : s.store[l]? with
    | none => rw [show Lang.tabPut (.tab l) k v s = .odd from bind_odd (look_none hs)]; trivial
    | some th =>
      cases th with
      | fn ps b env => rw [show Lang.tabPut (.tab l) k v s = .odd from bind_eq (look_some hs)]; trivial
      | host n env => rw [show Lang.tabPut (.tab l) k v s = .odd from bind_eq (look_some hs)]; trivial
      | tab es =>
        by_cases hkey : isKey k = true
        · by_cases hk : (Lang.sameKind k k && es.all (fun e => Lang.sameKind k e.1)) = true
          · have htp := tabPut_eq (v := v) hs hkey hk
            rw [Bool.and_eq_true, List.all_eq_true] at hk
            obtain ⟨hk1, hk2⟩ := hk
            obtain ⟨_, ⟨⟩, hok⟩ := h.core.things l ta _ _ hl hs t1
            have hka : kc = .atom (objOf ka kc) := atom_cell k2 (by rintro l rfl; cases hk1) (by rintro l rfl; cases hk1)
            have hkh : Holds vm1.heap ka (.atom (objOf ka kc)) := by rw [← hka]; exact k1
            rw [if_pos (by rw [isKey_img k2]; exact hkey)] at e2
            by_cases hclo : ∃ f, v = .clo f
            · obtain ⟨f, rfl⟩ := hclo
              obtain ⟨hf, cn, cr, cl, rfl⟩ := clo_cell h.core.inv v1 v2
              have htp : _ = (match s.store[f]? with
                | none => Lang.Out.odd
                | some t =>
                  match Lang.bindSelf (.tab l) t with
                  | some c => .ok () (withThing l (.tab (putEntries k (some (.clo s.store.length)) es)) (withNew c s))
                  | none => .odd) := htp
              cases hsf : s.store[f]? with
              | none =>
                rw [hsf] at htp
                rw [htp]; trivial
              | some tf =>
                rw [hsf] at htp
                simp only at htp
                cases hb : Lang.bindSelf (.tab l) tf with
                | none =>
                  rw [hb] at htp
                  rw [htp]; trivial
                | some tc =>
                  rw [hb] at htp
                  rw [htp]
                  have hth := h.core.things f va tf _ hf hsf v1
                  have hcok := h.core.inv.cells va _ v1
                  have hivp : VInv { vm1 with stack := as' ++ vm0.stack } := by
                    have := h.core.inv.popN 3
                    rwa [hpop] at this
                  have hcell : CellOk vm1.heap vm1.strings (.clo cn cr (ta :: cl.tail)) := by
                    refine ⟨hcok.1, fun b hb => ?_⟩
                    rcases List.mem_cons.mp hb with rfl | hb
                    · exact ⟨_, t1⟩
                    · exact hcok.2 b (List.mem_of_mem_tail hb)
                  have himid := hivp.push (c := .clo cn cr (ta :: cl.tail)) hcell
                  have ex := ext_new h.core.inv.heap (.clo cn cr (ta :: cl.tail))
                  have hnew := holds_new h.core.inv.heap (.clo cn cr (ta :: cl.tail))
                  have hmid : PtR K vm0 ρ0 p (.clo s.store.length :: ws) (withNew tc s) (VM.push { vm1 with stack := as' ++ vm0.stack } (.clo cn cr (ta :: cl.tail)))
                      (ρ ++ [vm1.heap.brk]) (vm1.heap.brk :: as') := by
                    refine h.allocR himid ex rfl rfl rfl rfl rfl rfl h.pc (le_refl _) hnew ?_ ?_ rfl rs
                    · cases tf with
                      | tab es => cases hb
                      | host n env =>
                        cases env with
                        | nil => cases hb
                        | cons e0 env =>
                          cases hb
                          obtain ⟨r3, ls, ⟨⟩, r1, r2⟩ := hth
                          cases r1 with
                          | @cons _ a0 _ l' r0 rr =>
                            refine ⟨r3, _, rfl, .cons ?_ ?_, by simp⟩
                            · exact ⟨_, holds_old h.core.inv.heap t1, t2.mono (prefix_append _ _)⟩
                            · exact reps_evo (f := fun e : Obj => e) rr h.core.inv.heap ex.evo (prefix_append _ _) fun b hb =>
                                live_old h.core.inv.heap (hcok.2 b (List.mem_cons_of_mem _ hb))
                      | fn ps b env =>
                        cases env with
                        | nil => cases hb
                        | cons e0 env =>
                          cases hb
                          obtain ⟨q', ls, ⟨⟩, r1, r2, r3⟩ := hth
                          cases r1 with
                          | @cons _ a0 _ l' r0 rr =>
                            refine ⟨_, _, rfl, .cons ?_ ?_, by simp, r3⟩
                            · exact ⟨_, holds_old h.core.inv.heap t1, t2.mono (prefix_append _ _)⟩
                            · exact reps_evo (f := fun e : Bytes × Obj => e.2) rr h.core.inv.heap ex.evo (prefix_append _ _) fun b hb =>
                                live_old h.core.inv.heap (hcok.2 b (List.mem_cons_of_mem _ hb))
                    · refine ⟨vm1.heap.brk, ?_, rfl⟩
                      rw [← h.core.len, List.getElem?_concat_length]
                  have hl2 : (ρ ++ [vm1.heap.brk])[l]? = some ta := by
                    rw [List.getElem?_append_left (List.getElem?_eq_some_iff.mp hl).1]
                    exact hl
                  have hs2 : (withNew tc s).store[l]? = some (.tab es) := by
                    show (s.store ++ [tc])[l]? = _
                    rw [List.getElem?_append_left (List.getElem?_eq_some_iff.mp hs).1]
                    exact hs
                  have t1' := holds_old (c := .clo cn cr (ta :: cl.tail)) h.core.inv.heap t1
                  obtain ⟨_, ⟨⟩, hok2⟩ := hmid.core.things l ta _ _ hl2 hs2 t1'
                  obtain ⟨tb', s1, s2⟩ := tab_put (v := some (.clo s.store.length, vm1.heap.brk)) g himid (himid.cells ta _ t1') hok2 hk1 hk2
                    (holds_old h.core.inv.heap hkh) (k2.mono (prefix_append _ _)) (by
                      rintro _ ⟨⟩
                      exact ⟨_, hnew, _, by rw [← h.core.len, List.getElem?_concat_length], rfl⟩)
                  have s1 : Table.set K.E.sc tb (objOf ka kc) (ka, (newobj vm1.heap (.clo cn cr (ta :: cl.tail))).2) = .ok tb' := s1
                  have e3 : r = .ok { vm1 with stack := as' ++ vm0.stack,
                                                                        heap := write (newobj vm1.heap (.clo cn cr (ta :: cl.tail))).1 ta (.tab tb') } := by
                    rw [e2]
                    simp only
                    rw [s1, Res.ok_bind]
                    rfl
                  have hrs : List.Forall₂ (fun w a => Rep (ρ ++ [vm1.heap.brk]) (newobj vm1.heap (.clo cn cr (ta :: cl.tail))).1 w a) ws as' := by
                    cases hmid.reps with
                    | cons _ rr => exact rr
                  exact ⟨_, e3, hmid.update g (hv _ e3) hl2 t1' rfl s2 rfl rfl rfl rfl rfl rfl h.pc rfl hrs⟩
            · have hnc : ∀ f, v ≠ .clo f := fun f e => hclo ⟨f, e⟩
              have hvc := not_clo_cell v2 hnc
              by_cases hnil : v = .nil
              · subst hnil
                have hvn : vc = .atom .nil := by
                  have := atom_cell v2 (by simp) (by simp)
                  rw [this, show objOf va vc = .nil from v2]
                subst hvn
                rw [htp]
                obtain ⟨tb', s1, s2⟩ := tab_put (v := none) g h.core.inv (h.core.inv.cells ta _ t1) hok hk1 hk2 hkh k2 (by simp)
                have s1 : Table.remove K.E.sc tb (objOf ka kc) = .ok tb' := s1
                have e3 : r = .ok { vm1 with stack := as' ++ vm0.stack, heap := write vm1.heap ta (.tab tb') } := by
                  rw [e2]
                  simp only
                  rw [s1, Res.ok_bind]
                  rfl
                exact ⟨_, e3, h.update g (hv _ e3) hl t1 rfl s2 rfl rfl rfl rfl rfl rfl h.pc rfl rs⟩
              · have hpo : putOut l es k v s = .ok () (withThing l (.tab (putEntries k (some v) es)) s) := by
                  cases v with
                  | nil => exact absurd rfl hnil
                  | clo f => exact absurd rfl (hnc f)
                  | _ => rfl
                rw [hpo] at htp
                rw [htp]
                obtain ⟨tb', s1, s2⟩ := tab_put (v := some (v, va)) g h.core.inv (h.core.inv.cells ta _ t1) hok hk1 hk2 hkh k2 (by rintro _ ⟨⟩; exact ⟨vc, v1, v2⟩)
                have s1 : Table.set K.E.sc tb (objOf ka kc) (ka, va) = .ok tb' := s1
                have e3 : r = .ok { vm1 with stack := as' ++ vm0.stack, heap := write vm1.heap ta (.tab tb') } := by
                  have hmatch : r = (Table.set K.E.sc tb (objOf ka kc) (ka, va) >>= fun t' =>
                      pure { vm1 with stack := as' ++ vm0.stack, heap := write vm1.heap ta (.tab t') }) := by
                    rw [e2]
                    cases vc with
                    | clo x y z => exact absurd rfl (hvc x y z)
                    | tab t =>
                      rw [s1]
                    | atom o =>
                      cases o with
                      | nil =>
                        exfalso
                        have v2 : Img ρ v .nil := v2
                        cases v with
                        | nil => exact hnil rfl
                        | tab l => obtain ⟨_, _, h⟩ := v2; cases h
                        | clo l => obtain ⟨_, _, h⟩ := v2; cases h
                        | str j x => obtain ⟨_, _, _, h⟩ := v2; cases h
                        | _ => cases v2
                      | _ =>
                        rw [s1]
                  rw [hmatch, s1, Res.ok_bind]
                  rfl
                exact ⟨_, e3, h.update g (hv _ e3) hl t1 rfl s2 rfl rfl rfl rfl rfl rfl h.pc rfl rs⟩
          · have ho : Lang.tabPut (.tab l) k v s = .odd := by
              refine (bind_eq (look_some hs)).trans ?_
              simp only
              rw [if_pos hkey, if_neg hk]
              rfl
            rw [ho]
            trivial
        · have ho : Lang.tabPut (.tab l) k v s = .err .type := by
            refine (bind_eq (look_some hs)).trans ?_
            simp only
            rw [if_neg hkey]
            rfl
          rw [ho]
          · have e3 : r = .ok (setErr { vm1 with stack := as' ++ vm0.stack } .type) := by
              rw [e2, if_neg (by rw [isKey_img k2]; exact hkey)]
              rfl
            exact ⟨_, e3, rfl, rfl⟩
  · have hne : ∀ l, t ≠ .tab l := fun l e => ht ⟨l, e⟩
    have hd := not_tab_cell t2 hne
    have ho : Lang.tabPut t k v s = .err .type := by
      cases t with
      | tab l => exact absurd rfl (hne l)
      | _ => rfl
    rw [ho]
    · have e3 : r = .ok (setErr vm1 .type) := by
        rw [e2]
        cases tc with
        | tab t => exact absurd rfl (hd t)
        | _ => rfl
      exact ⟨_, e3, rfl, rfl⟩

/-- Another place. -/
theorem PtR.at {ρ as : List Nat} (h : PtR K vm0 ρ0 p ws s vm ρ as) (i : VInv { vm with pc := (q : Int) }) : PtR K vm0 ρ0 q ws s { vm with pc := (q : Int) } ρ as :=
  { h with core := { h.core with inv := i }, pc := rfl }

theorem pt_tput {t k v : Obj} (h : Pt K vm0 ρ0 p (v :: k :: t :: ws) s vm) (l : LnAt K p (.op 31) q) (hq : q < K.code.length) :
    Sim K n R (Lang.tabPut t k v) s vm (fun _ s' vm' => Pt K vm0 ρ0 q ws s' vm') := by
  obtain ⟨l, rfl⟩ := l
  obtain ⟨vm1, ρ, as, h, hp, e, hv⟩ := h.go g l (op := .tput) rfl
  have e2 : VM.exec K.E K.F vm1 .tput = (tput K.E vm1 >>= fun vm => ifReady vm (fun vm => incPc vm pure)) := rfl
  have hx := ptr_tput g h fun vm' he => by
    have := tput_out (E := K.E) (F := K.F) h.core.inv
    rw [he] at this
    exact this.1
  refine .inr ?_
  cases ht : Lang.tabPut t k v s with
  | ok u s' =>
    rw [ht] at hx
    obtain ⟨vm2, k1, ρ2, as2, k2⟩ := hx
    have e3 : VM.exec K.E K.F vm1 .tput = .ok { vm2 with pc := ((p + 1 : Nat) : Int) } := by
      rw [e2, k1, Res.ok_bind]
      unfold ifReady
      rw [if_pos k2.core.ready]
      exact inc_op g k2.core.code k2.pc hq ⟨by rw [k2.pc]; omega, by rw [k2.pc, k2.core.code]; omega⟩
    exact ⟨1, _, stepN_one (e.trans e3), ρ2, as2, k2.at g (hv _ e3)⟩
  | ret v s' => rw [ht] at hx; exact hx.elim
  | err er =>
    rw [ht] at hx
    obtain ⟨vm2, k1, k2, k3⟩ := hx
    have e3 : VM.exec K.E K.F vm1 .tput = .ok vm2 := by
      rw [e2, k1, Res.ok_bind]
      unfold ifReady
      rw [if_neg (by rw [k2]; decide)]
    exact ⟨1, vm2, stepN_one (e.trans e3), k2, k3⟩
  | odd => trivial
  | time => rw [ht] at hx; exact hx.elim

end

end Buzz.Sim
