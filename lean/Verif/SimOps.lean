import Verif.SimStep

/-
Operators and variables: one instruction of compiled code each.
-/
namespace Buzz.Sim

open Buzz.Msg Buzz.Heap Buzz.Props Buzz.VM
open Buzz.Lang (Ast Thing Scope Shape St Host)
open Buzz.Parser (Ln)
open Buzz.Comp (CS EC Sub Loc Tabs comp bodyC binOp unOp)

/-! ### Operators -/

theorem Img.cases {ρ : List Nat} {v o : Obj} (h : Img ρ v o) : o = v ∨ (∃ l a, v = .tab l ∧ o = .tab a ∧ ρ[l]? = some a) ∨
    (∃ l a, v = .clo l ∧ o = .clo a ∧ ρ[l]? = some a) ∨ ∃ s j, v = .str 0 s ∧ o = .str j s ∧ Obj.CStr s := by
  cases v with
  | tab l => obtain ⟨a, h1, rfl⟩ := h; exact .inr (.inl ⟨l, a, rfl, rfl, h1⟩)
  | clo l => obtain ⟨a, h1, rfl⟩ := h; exact .inr (.inr (.inl ⟨l, a, rfl, rfl, h1⟩))
  | str i s => obtain ⟨rfl, h1, j, rfl⟩ := h; exact .inr (.inr (.inr ⟨s, j, rfl, rfl, h1⟩))
  | nil => exact .inl h
  | int v => exact .inl h
  | flt f => exact .inl h
  | user p => exact .inl h

/-- The order of tables is not part of the meaning. -/
def ordered (o : Bin) (x y : Obj) : Prop := (∃ a b, x = .tab a ∧ y = .tab b) ∧ o ∈ [Bin.lt, .lte, .gt, .gte]

theorem cmpI_img {ρ : List Nat} (hn : ρ.Nodup) {l k a b : Nat} (h1 : ρ[l]? = some a) (h2 : ρ[k]? = some b) : Obj.cmpI a b = 0 ↔ Obj.cmpI l k = 0 := by
  have h : a = b ↔ l = k := by
    constructor
    · rintro rfl
      exact (List.getElem?_inj (List.getElem?_eq_some_iff.mp h1).1 hn).mp (h1.trans h2.symm)
    · rintro rfl
      rw [h1] at h2
      cases h2
      rfl
  have g : ∀ x y : Nat, Obj.cmpI x y = 0 ↔ x = y := by
    intro x y
    unfold Obj.cmpI
    split
    · constructor <;> intro <;> omega
    · split
      · constructor <;> intro <;> omega
      · constructor <;> intro <;> omega
  rw [g, g]
  exact h

theorem cmpI_ne2 (a b : Int) : Obj.cmpI a b ≠ 2 := by
  unfold Obj.cmpI
  split
  · decide
  · split <;> decide

theorem binV_tabs {E : Env} {ρ : List Nat} (hn : ρ.Nodup) {o : Bin} {l k a b : Nat} (h1 : ρ[l]? = some a) (h2 : ρ[k]? = some b) (h : o ∉ [Bin.lt, .lte, .gt, .gte]) :
    binV E o (.tab a) (.tab b) = binV E o (.tab l) (.tab k) := by
  have hc := cmpI_img hn h1 h2
  have e : ∀ x y : Nat, cmpV E (fun c => decide (c = 0)) (.tab x) (.tab y) = some (.ok (ofBool (decide (Obj.cmpI x y = 0)))) := by
    intro x y
    show some (Res.ok (ofBool (decide (Obj.cmpI x y = 2) || decide (Obj.cmpI x y = 0)))) = _
    simp [cmpI_ne2]
  have e' : ∀ x y : Nat, cmpV E (fun c => decide (c ≠ 0)) (.tab x) (.tab y) = some (.ok (ofBool (decide (Obj.cmpI x y ≠ 0)))) := by
    intro x y
    show some (Res.ok (ofBool (decide (Obj.cmpI x y = 2) || decide (Obj.cmpI x y ≠ 0)))) = _
    simp [cmpI_ne2]
  cases o with
  | eq =>
    show cmpV E _ _ _ = cmpV E _ _ _
    rw [e, e]
    simp only [hc]
  | neq =>
    show cmpV E _ _ _ = cmpV E _ _ _
    rw [e', e']
    simp only [ne_eq, hc]
  | gt => exact absurd (by decide) h
  | gte => exact absurd (by decide) h
  | lt => exact absurd (by decide) h
  | lte => exact absurd (by decide) h
  | _ => rfl

theorem binV_img {E : Env} {ρ : List Nat} (hn : ρ.Nodup) {o : Bin} {x x' y y' : Obj} (hx : Img ρ x x') (hy : Img ρ y y') (h : ¬ ordered o x y) : binV E o x' y' = binV E o x y := by
  cases x with
  | tab l =>
    obtain ⟨a, h1, rfl⟩ := hx
    cases y with
    | tab k =>
      obtain ⟨b, h2, rfl⟩ := hy
      exact binV_tabs hn h1 h2 fun hm => h ⟨⟨l, k, rfl, rfl⟩, hm⟩
    | clo k => obtain ⟨b, h2, rfl⟩ := hy; cases o <;> rfl
    | str i s => obtain ⟨rfl, _, j, rfl⟩ := hy; cases o <;> rfl
    | _ => cases hy; cases o <;> rfl
  | clo l =>
    obtain ⟨a, h1, rfl⟩ := hx
    cases y with
    | tab k => obtain ⟨b, h2, rfl⟩ := hy; cases o <;> rfl
    | clo k => obtain ⟨b, h2, rfl⟩ := hy; cases o <;> rfl
    | str i s => obtain ⟨rfl, _, j, rfl⟩ := hy; cases o <;> rfl
    | _ => cases hy; cases o <;> rfl
  | str i s =>
    obtain ⟨rfl, _, j, rfl⟩ := hx
    cases y with
    | tab k => obtain ⟨b, h2, rfl⟩ := hy; cases o <;> rfl
    | clo k => obtain ⟨b, h2, rfl⟩ := hy; cases o <;> rfl
    | str i s => obtain ⟨rfl, _, j, rfl⟩ := hy; cases o <;> rfl
    | _ => cases hy; cases o <;> rfl
  | nil =>
    cases hx
    cases y with
    | tab k => obtain ⟨b, h2, rfl⟩ := hy; cases o <;> rfl
    | clo k => obtain ⟨b, h2, rfl⟩ := hy; cases o <;> rfl
    | str i s => obtain ⟨rfl, _, j, rfl⟩ := hy; cases o <;> rfl
    | _ => cases hy; rfl
  | int v =>
    cases hx
    cases y with
    | tab k => obtain ⟨b, h2, rfl⟩ := hy; cases o <;> rfl
    | clo k => obtain ⟨b, h2, rfl⟩ := hy; cases o <;> rfl
    | str i s => obtain ⟨rfl, _, j, rfl⟩ := hy; cases o <;> rfl
    | _ => cases hy; rfl
  | flt f =>
    cases hx
    cases y with
    | tab k => obtain ⟨b, h2, rfl⟩ := hy; cases o <;> rfl
    | clo k => obtain ⟨b, h2, rfl⟩ := hy; cases o <;> rfl
    | str i s => obtain ⟨rfl, _, j, rfl⟩ := hy; cases o <;> rfl
    | _ => cases hy; rfl
  | user p =>
    cases hx
    cases y with
    | tab k => obtain ⟨b, h2, rfl⟩ := hy; cases o <;> rfl
    | clo k => obtain ⟨b, h2, rfl⟩ := hy; cases o <;> rfl
    | str i s => obtain ⟨rfl, _, j, rfl⟩ := hy; cases o <;> rfl
    | _ => cases hy; rfl

theorem unV_img {ρ : List Nat} {o : Un} {x x' : Obj} (hx : Img ρ x x') : unV o x' = unV o x := by
  cases x with
  | tab l => obtain ⟨a, h1, rfl⟩ := hx; cases o <;> rfl
  | clo l => obtain ⟨a, h1, rfl⟩ := hx; cases o <;> rfl
  | str i s => obtain ⟨rfl, _, j, rfl⟩ := hx; cases o <;> rfl
  | _ => cases hx; rfl

/-- Numbers. -/
def IsNum (v : Obj) : Prop := (∃ i, v = .int i) ∨ ∃ f, v = .flt f

theorem IsNum.img {ρ : List Nat} {v : Obj} (h : IsNum v) : Img ρ v v := by
  rcases h with ⟨i, rfl⟩ | ⟨f, rfl⟩ <;> rfl

theorem chk_num {x : Int} {v : Obj} (h : chk x = .ok v) : IsNum v := by
  unfold chk at h
  split at h
  · cases h; exact .inl ⟨_, rfl⟩
  · cases h

theorem divI_num {a b : Int} {v : Obj} (h : divI a b = .ok v) : IsNum v := by
  unfold divI at h
  split at h
  · cases h
  · exact chk_num h

theorem modI_num {a b : Int} {v : Obj} (h : modI a b = .ok v) : IsNum v := by
  unfold modI at h
  split at h
  · cases h
  · split at h
    · cases h
    · split at h
      · exact chk_num h
      · cases h; exact .inl ⟨_, rfl⟩

theorem shlI_num {a b : Int} {v : Obj} (h : shlI a b = .ok v) : IsNum v := by
  unfold shlI at h
  split at h
  · exact chk_num h
  · cases h

theorem shrI_num {a b : Int} {v : Obj} (h : shrI a b = .ok v) : IsNum v := by
  unfold shrI at h
  split at h
  · cases h; exact .inl ⟨_, rfl⟩
  · cases h

theorem arithV_num {fi : Int → Int → Res Obj} {ff : F32.Flt → F32.Flt → F32.Flt} (hf : ∀ a b v, fi a b = .ok v → IsNum v) {a b v : Obj} (h : arithV fi ff a b = some (.ok v)) : IsNum v := by
  unfold arithV at h
  split at h
  · rw [Option.some.injEq] at h
    exact hf _ _ _ h
  · split at h
    · rw [Option.some.injEq] at h
      cases h
      exact .inr ⟨_, rfl⟩
    · cases h

theorem bitV_num {f : Int → Int → Res Obj} (hf : ∀ a b v, f a b = .ok v → IsNum v) {a b v : Obj} (h : bitV f a b = some (.ok v)) : IsNum v := by
  unfold bitV at h
  split at h
  · rw [Option.some.injEq] at h
    exact hf _ _ _ h
  · cases h

theorem cmpV_num {E : Env} {p : Int → Bool} {a b v : Obj} (h : cmpV E p a b = some (.ok v)) : IsNum v := by
  unfold cmpV at h
  rw [Option.some.injEq] at h
  cases hc : Obj.cmp E.sc a b with
  | ok c => rw [hc] at h; cases h; exact .inl ⟨_, rfl⟩
  | ub => rw [hc] at h; cases h
  | abort => rw [hc] at h; cases h
  | hang => rw [hc] at h; cases h

theorem binV_num {E : Env} {o : Bin} {a b v : Obj} (h : binV E o a b = some (.ok v)) : IsNum v := by
  cases o with
  | add => exact arithV_num (fun _ _ _ h => chk_num h) h
  | sub => exact arithV_num (fun _ _ _ h => chk_num h) h
  | mul => exact arithV_num (fun _ _ _ h => chk_num h) h
  | div => exact arithV_num (fun _ _ _ h => divI_num h) h
  | mod =>
    cases a with
    | int x =>
      cases b with
      | int y => exact modI_num (Option.some.inj h)
      | flt y => cases h; exact .inr ⟨_, rfl⟩
      | _ => cases h
    | flt x =>
      cases b with
      | int y => cases h; exact .inr ⟨_, rfl⟩
      | flt y => cases h; exact .inr ⟨_, rfl⟩
      | _ => cases h
    | _ => cases b <;> cases h
  | pow =>
    have h : powV E a b = some (.ok v) := h
    unfold powV at h
    split at h
    · cases h; exact .inr ⟨_, rfl⟩
    · cases h
  | land => cases h; exact .inl ⟨_, rfl⟩
  | lor => cases h; exact .inl ⟨_, rfl⟩
  | band => exact bitV_num (fun _ _ _ h => by cases h; exact .inl ⟨_, rfl⟩) h
  | bor => exact bitV_num (fun _ _ _ h => by cases h; exact .inl ⟨_, rfl⟩) h
  | shl => exact bitV_num (fun _ _ _ h => shlI_num h) h
  | shr => exact bitV_num (fun _ _ _ h => shrI_num h) h
  | eq => exact cmpV_num h
  | neq => exact cmpV_num h
  | gt => exact cmpV_num h
  | gte => exact cmpV_num h
  | lt => exact cmpV_num h
  | lte => exact cmpV_num h

theorem unV_num {o : Un} {a v : Obj} (h : unV o a = some (.ok v)) : IsNum v := by
  cases o with
  | unm =>
    cases a with
    | int x => exact chk_num (Option.some.inj h)
    | flt x => cases h; exact .inr ⟨_, rfl⟩
    | _ => cases h
  | lnot => cases h; exact .inl ⟨_, rfl⟩
  | bnot =>
    cases a with
    | int x => cases h; exact .inl ⟨_, rfl⟩
    | _ => cases h

variable {K : Ctx} {n : Nat} {R : Obj → St → VM → Prop}

section
variable (g : Good K) {vm0 : VM} {ρ0 : List Nat} {p q : Nat} {w v : Obj} {ws : List Obj} {s : St} {vm : VM}
include g

/-- Replacing the top of the stack by a new object that is not a location. -/
theorem PtR.pushed {c : Cell} {ρ as as' : List Nat} {vm' : VM} {ws' : List Obj} (h : PtR K vm0 ρ0 p ws s vm ρ as) (i : VInv vm')
    (he : vm' = VM.push { vm with pc := (q : Int), stack := as' ++ vm0.stack } c)
    (hr : List.Forall₂ (fun w a => Rep ρ vm.heap w a) ws' as') (hv : ∀ a, Img ρ v (objOf a c)) : Pt K vm0 ρ0 q (v :: ws') s vm' := by
  subst he
  have hn := holds_new h.core.inv.heap c
  refine h.next i (ext_new h.core.inv.heap c) rfl rfl rfl rfl rfl rfl rfl (as' := (newobj vm.heap c).2 :: as') rfl ?_
  intro k l
  exact .cons ⟨c, hn, hv _⟩ (reps_live hr k fun a ha => l a (List.mem_cons_of_mem _ ha))

/-- An error of an operator. -/
theorem err_inc {vm1 : VM} {e : Err} (hc : vm1.code = K.code) (hp : vm1.pc = (p : Int)) (hq : p + 1 < K.code.length) : ∃ vm', incPc (setErr vm1 e) pure = .ok vm' ∧
    vm'.state = .error ∧ vm'.error = e := by
  refine ⟨{ setErr vm1 e with pc := vm1.pc + 1 }, ?_, rfl, rfl⟩
  unfold incPc assertPc
  rw [if_neg]
  · rfl
  · show ¬ (vm1.pc + 1 < 0 ∨ vm1.pc + 1 ≥ vm1.code.length)
    rw [hp, hc]
    omega

theorem peek_two {x y : Obj} {ρ as : List Nat} {vm : VM} (h : PtR K vm0 ρ0 p (y :: x :: ws) s vm ρ as) : ∃ a b as' c d, as = a :: b :: as' ∧
    List.Forall₂ (fun w a => Rep ρ vm.heap w a) ws as' ∧ Holds vm.heap a c ∧ Img ρ y (objOf a c) ∧ Holds vm.heap b d ∧ Img ρ x (objOf b d) ∧
    vm.stack = a :: b :: (as' ++ vm0.stack) := by
  cases hr : h.reps with
  | @cons _ a _ as' r rs =>
    cases rs with
    | @cons _ b _ as' r' rs =>
      obtain ⟨c, h1, h2⟩ := r
      obtain ⟨d, h3, h4⟩ := r'
      exact ⟨a, b, as', c, d, rfl, rs, h1, h2, h3, h4, h.stack⟩

theorem pt_bin {o : Bin} {x y : Obj} (h : Pt K vm0 ρ0 p (y :: x :: ws) s vm) (l : LnAt K p (.op (binOp o)) q) (hq : q < K.code.length) :
    Sim K n R (Lang.binary K.host o x y) s vm (fun v s' vm' => Pt K vm0 ρ0 q (v :: ws) s' vm') := by
  by_cases ho : ordered o x y
  · obtain ⟨⟨a, b, rfl, rfl⟩, hm⟩ := ho
    refine Sim.of_odd ?_
    show (if o ∈ [Bin.lt, .lte, .gt, .gte] then Lang.odd else _) s = _
    rw [if_pos hm]
    rfl
  have hb : Lang.binary K.host o x y = Lang.result (binV K.E o x y) := by
    unfold Lang.binary
    split
    · rename_i a b
      exact if_neg fun hm => ho ⟨⟨a, b, rfl, rfl⟩, hm⟩
    · rfl
  rw [hb]
  obtain ⟨l, rfl⟩ := l
  obtain ⟨vm1, ρ, as, h, hp, e, hv⟩ := h.go g l (op := .bin o) (by cases o <;> rfl)
  obtain ⟨a, b, as', c, d, rfl, rs, h1, h2, h3, h4, hst⟩ := peek_two g h
  have p1 := (peek_at g (vm := vm1) (i := 0) (by rw [hst]; rfl) h1).2.2
  have p2 := (peek_at g (vm := vm1) (i := 1) (by rw [hst]; rfl) h3).2.2
  have hbin := binV_img (E := K.E) h.core.nodup h4 h2 ho
  have e1 : binop K.E o vm1 = match binV K.E o x y with
      | none => pure (setErr (if binKeep o then vm1 else popN vm1 2) .type)
      | some r => r >>= fun v => pure (VM.push (popN vm1 2) (.atom v)) := by
    unfold binop
    rw [need_of g (by rw [hst]; simp; omega)]
    simp only [Nat.zero_add, Nat.cast_one] at p1
    have p2 : VM.peek vm1 2 = .ok (objOf b d) := p2
    rw [p1, Res.ok_bind, p2, Res.ok_bind, hbin]
    rfl
  have e2 : VM.exec K.E K.F vm1 (.bin o) = (binop K.E o vm1 >>= fun vm => incPc vm pure) := rfl
  cases hr : binV K.E o x y with
  | none =>
    refine Sim.of_err rfl ?_
    rw [hr] at e1
    rw [e1] at e2
    obtain ⟨vm', k1, k2, k3⟩ := err_inc g (vm1 := if binKeep o then vm1 else popN vm1 2) (e := .type) (p := p) (by split; exact h.core.code; exact h.core.code)
      (by split; exact h.pc; exact h.pc) hq
    exact ⟨1, vm', stepN_one (e.trans (e2.trans k1)), k2, k3⟩
  | some r =>
    cases r with
    | ok v =>
      refine Sim.of_ok rfl ?_
      rw [hr] at e1
      rw [e1] at e2
      have e3 : VM.exec K.E K.F vm1 (.bin o) = .ok (VM.push { vm1 with pc := ((p + 1 : Nat) : Int), stack := as' ++ vm0.stack } (.atom v)) := by
        rw [e2]
        have hp' : popN vm1 2 = { vm1 with stack := as' ++ vm0.stack } := by
          unfold popN
          rw [hst]
          rfl
        rw [hp']
        exact inc_op (p := p) (vm := VM.push { vm1 with stack := as' ++ vm0.stack } (.atom v)) g h.core.code h.pc hq hp
      exact ⟨1, _, stepN_one (e.trans e3), h.pushed g (hv _ e3) rfl rs fun _ => (binV_num hr).img⟩
    | ub => exact Sim.of_odd rfl
    | abort => exact Sim.of_odd rfl
    | hang => exact Sim.of_odd rfl

theorem pt_un {o : Un} {x : Obj} (h : Pt K vm0 ρ0 p (x :: ws) s vm) (l : LnAt K p (.op (unOp o)) q) (hq : q < K.code.length) :
    Sim K n R (Lang.unary o x) s vm (fun v s' vm' => Pt K vm0 ρ0 q (v :: ws) s' vm') := by
  unfold Lang.unary
  obtain ⟨l, rfl⟩ := l
  obtain ⟨vm1, ρ, as, h, hp, e, hv⟩ := h.go g l (op := .un o) (by cases o <;> rfl)
  obtain ⟨a, as', c, rfl, rs, h1, h2, hst⟩ := peek_top g h
  have p1 := (peek_at g (vm := vm1) (i := 0) (by rw [hst]; rfl) h1).2.2
  have e1 : unop o vm1 = match unV o x with
      | none => pure (setErr (if unKeep o then vm1 else popN vm1 1) .type)
      | some r => r >>= fun v => pure (VM.push (popN vm1 1) (.atom v)) := by
    unfold unop
    rw [need_of g (by rw [hst]; simp; omega)]
    simp only [Nat.zero_add, Nat.cast_one] at p1
    rw [p1, Res.ok_bind, unV_img h2]
    rfl
  have e2 : VM.exec K.E K.F vm1 (.un o) = (unop o vm1 >>= fun vm => incPc vm pure) := rfl
  cases hr : unV o x with
  | none =>
    refine Sim.of_err rfl ?_
    rw [hr] at e1
    rw [e1] at e2
    obtain ⟨vm', k1, k2, k3⟩ := err_inc g (vm1 := if unKeep o then vm1 else popN vm1 1) (e := .type) (p := p) (by split; exact h.core.code; exact h.core.code)
      (by split; exact h.pc; exact h.pc) hq
    exact ⟨1, vm', stepN_one (e.trans (e2.trans k1)), k2, k3⟩
  | some r =>
    cases r with
    | ok v =>
      refine Sim.of_ok rfl ?_
      rw [hr] at e1
      rw [e1] at e2
      have e3 : VM.exec K.E K.F vm1 (.un o) = .ok (VM.push { vm1 with pc := ((p + 1 : Nat) : Int), stack := as' ++ vm0.stack } (.atom v)) := by
        rw [e2]
        have hp' : popN vm1 1 = { vm1 with stack := as' ++ vm0.stack } := by
          unfold popN
          rw [hst]
          rfl
        rw [hp']
        exact inc_op (p := p) (vm := VM.push { vm1 with stack := as' ++ vm0.stack } (.atom v)) g h.core.code h.pc hq hp
      exact ⟨1, _, stepN_one (e.trans e3), h.pushed g (hv _ e3) rfl rs fun _ => (unV_num hr).img⟩
    | ub => exact Sim.of_odd rfl
    | abort => exact Sim.of_odd rfl
    | hang => exact Sim.of_odd rfl

/-! ### Global variables -/

theorem sid_eq {ρ : List Nat} {vm : VM} {x : Bytes} {i a : Nat} {c : Cell} (h : Core K ρ s vm) (ha : Holds vm.heap a c) (hi : Img ρ (.str 0 x) (objOf a c))
    (hx : FMap.get K.strings x = some i) : objOf a c = .str i x := by
  obtain ⟨_, _, j, e⟩ := hi
  have hk := h.inv.cells a c ha
  cases c with
  | tab t => cases e
  | clo b r l => cases e
  | atom o =>
    have e : o = .str j x := e
    subst e
    have hk : Strman.get vm.strings j = some x := hk
    unfold Strman.get at hk
    cases hj : FMap.get vm.strings.id2str j with
    | none => rw [hj] at hk; cases hk
    | some e =>
      rw [hj] at hk
      obtain ⟨y, b⟩ := e
      obtain rfl : x = y := (Option.some.inj hk).symm
      have h1 := h.inv.strings.back j x b hj
      have h2 := h.inv.strings.back i x true (h.strs x i hx)
      rw [h1] at h2
      cases h2
      rfl

theorem pt_gload {x : Bytes} {i : Nat} (h : Pt K vm0 ρ0 p (.str 0 x :: ws) s vm) (l : LnAt K p (.op 28) q) (hx : FMap.get K.strings x = some i) (hq : q < K.code.length) :
    ∃ vm', K.step vm = .ok vm' ∧ Pt K vm0 ρ0 q (Lang.globalVal x s :: ws) s vm' := by
  obtain ⟨l, rfl⟩ := l
  obtain ⟨vm1, ρ, as, h, hp, e, hv⟩ := h.go g l (op := .gload) rfl
  obtain ⟨a, as', c, rfl, rs, h1, h2, hst⟩ := peek_top g h
  have hs := sid_eq g h.core h1 h2 hx
  have e2 : VM.exec K.E K.F vm1 .gload = gload { vm1 with pc := ((p + 1 : Nat) : Int) } := inc_op g h.core.code h.pc hq hp
  have p1 := (peek_at g (vm := { vm1 with pc := ((p + 1 : Nat) : Int) }) (i := 0) (by show vm1.stack[0]? = _; rw [hst]; rfl) h1).2.2
  simp only [Nat.zero_add, Nat.cast_one] at p1
  have hpop : popN { vm1 with pc := ((p + 1 : Nat) : Int) } 1 = { vm1 with pc := ((p + 1 : Nat) : Int), stack := as' ++ vm0.stack } := by
    unfold popN
    show _ = _
    rw [hst]
    rfl
  obtain ⟨g1, g2⟩ := h.core.globals x i hx
  unfold gload at e2
  rw [need_of g (by show (1 : Int) ≤ vm1.stack.length; rw [hst]; simp; omega), p1, Res.ok_bind, hs, hpop] at e2
  cases hg : FMap.get vm1.gsyms i with
  | some b =>
    have e3 : VM.exec K.E K.F vm1 .gload = .ok { vm1 with pc := ((p + 1 : Nat) : Int), stack := b :: (as' ++ vm0.stack) } := by
      rw [e2]
      show (match FMap.get vm1.gsyms i with | some a => _ | none => _) = _
      rw [hg]
      rfl
    exact ⟨_, e.trans e3, h.next (hv _ e3) (Ext.refl _) rfl rfl rfl rfl rfl rfl rfl (as' := b :: as') rfl fun _ _ => .cons (g1 b hg) rs⟩
  | none =>
    have e3 : VM.exec K.E K.F vm1 .gload = .ok (VM.push { vm1 with pc := ((p + 1 : Nat) : Int), stack := as' ++ vm0.stack } (.atom .nil)) := by
      rw [e2]
      show (match FMap.get vm1.gsyms i with | some a => _ | none => _) = _
      rw [hg]
      rfl
    exact ⟨_, e.trans e3, h.pushed g (hv _ e3) rfl rs fun _ => by rw [g2 hg]; rfl⟩

omit g in
theorem valueOf_filter {x y : Bytes} (h : y ≠ x) (l : List (Bytes × Obj)) : Lang.valueOf y (l.filter (fun e => e.1 ≠ x)) = Lang.valueOf y l := by
  induction l with
  | nil => rfl
  | cons e l ih =>
    by_cases he : e.1 = x
    · rw [List.filter_cons_of_neg (by simpa using he), ih]
      show _ = if e.1 = y then _ else _
      rw [if_neg (by rw [he]; exact Ne.symm h)]
    · rw [List.filter_cons_of_pos (by simpa using he)]
      show (if e.1 = y then _ else _) = if e.1 = y then _ else _
      rw [ih]

/-- The state after an assignment to a global variable. -/
def withGlobal (x : Bytes) (v : Obj) (s : St) : St := { s with globals := (x, v) :: s.globals.filter (fun e => e.1 ≠ x) }

omit g in
theorem globalVal_self {x : Bytes} {v : Obj} {s : St} : Lang.globalVal x (withGlobal x v s) = v := by
  unfold Lang.globalVal withGlobal
  show (if x = x then some v else _).getD _ = v
  rw [if_pos rfl]
  rfl

omit g in
theorem globalVal_ne {x y : Bytes} {v : Obj} {s : St} (h : y ≠ x) : Lang.globalVal y (withGlobal x v s) = Lang.globalVal y s := by
  unfold Lang.globalVal withGlobal
  show (if x = y then some v else _).getD _ = _
  rw [if_neg (Ne.symm h), valueOf_filter h]

theorem pt_gstore {x : Bytes} {i : Nat} (h : Pt K vm0 ρ0 p (v :: .str 0 x :: ws) s vm) (l : LnAt K p (.op 29) q) (hx : FMap.get K.strings x = some i) (hq : q < K.code.length) :
    ∃ vm', K.step vm = .ok vm' ∧ Pt K vm0 ρ0 q ws (withGlobal x v s) vm' := by
  obtain ⟨l, rfl⟩ := l
  obtain ⟨vm1, ρ, as, h, hp, e, hv⟩ := h.go g l (op := .gstore) rfl
  obtain ⟨a, b, as', c, d, rfl, rs, h1, h2, h3, h4, hst⟩ := peek_two g h
  have hs := sid_eq g h.core h3 h4 hx
  have e2 : VM.exec K.E K.F vm1 .gstore = gstore { vm1 with pc := ((p + 1 : Nat) : Int) } := inc_op g h.core.code h.pc hq hp
  have p1 := (peek_at g (vm := { vm1 with pc := ((p + 1 : Nat) : Int) }) (i := 0) (by show vm1.stack[0]? = _; rw [hst]; rfl) h1).1
  have p2 : VM.peek { vm1 with pc := ((p + 1 : Nat) : Int) } 2 = .ok (objOf b d) :=
    (peek_at g (vm := { vm1 with pc := ((p + 1 : Nat) : Int) }) (i := 1) (by show vm1.stack[1]? = _; rw [hst]; rfl) h3).2.2
  simp only [Nat.zero_add, Nat.cast_one] at p1
  have hpop : popN { vm1 with pc := ((p + 1 : Nat) : Int) } 2 = { vm1 with pc := ((p + 1 : Nat) : Int), stack := as' ++ vm0.stack } := by
    unfold popN
    show _ = _
    rw [hst]
    rfl
  unfold gstore at e2
  rw [need_of g (by show (2 : Int) ≤ vm1.stack.length; rw [hst]; simp; omega), p2, Res.ok_bind, hs] at e2
  have e3 : VM.exec K.E K.F vm1 .gstore = .ok { vm1 with pc := ((p + 1 : Nat) : Int), stack := as' ++ vm0.stack, gsyms := FMap.set vm1.gsyms i a } := by
    rw [e2]
    simp only
    rw [p1, Res.ok_bind, hpop]
    rfl
  have hi := hv _ e3
  refine ⟨_, e.trans e3, ρ, as', ?_⟩
  exact {
    core := by
      refine h.core.mono hi h.core.ready rfl (fun _ _ h => h) (Evo.refl _) (List.prefix_refl _) h.core.len h.core.nodup h.core.low (fun l a t d k1 k2 k3 => .inl ⟨k1, k2, k3⟩) ?_
      intro y j hy
      show (∀ b, FMap.get (FMap.set vm1.gsyms i a) j = some b → Rep ρ vm1.heap _ b) ∧ (FMap.get (FMap.set vm1.gsyms i a) j = none → _)
      by_cases hyx : y = x
      · subst hyx
        rw [hx] at hy
        cases hy
        rw [FMap.get_set_self, globalVal_self]
        refine ⟨?_, fun h => by cases h⟩
        rintro _ ⟨⟩
        exact ⟨c, h1, h2⟩
      · have hij : i ≠ j := by
          rintro rfl
          have k1 := h.core.strs x i hx
          have k2 := h.core.strs y i hy
          rw [k1] at k2
          cases k2
          exact hyx rfl
        rw [FMap.get_set, if_neg (Ne.symm hij), globalVal_ne hyx]
        exact h.core.globals y j hy
    sc := h.sc.evo h.core.inv hi (Evo.refl _) (List.prefix_refl _) rfl rfl
    pc := rfl
    stack := rfl
    reps := rs
    rest := h.rest
    tail := h.tail
    depth := h.depth
    evo := h.evo
    pre := h.pre
    floor := h.floor }

/-! ### Local variables -/

omit g in
theorem Core.rescope {ρ : List Nat} {s : St} {vm : VM} (h : Core K ρ s vm) (sc : Scope) : Core K ρ { s with scope := sc } vm :=
  ⟨h.inv, h.ready, h.base, h.strs, h.len, h.nodup, h.low, h.things, h.globals⟩

omit g in
theorem arg_small {i : Nat} (h : i < 4294967296) : ((i : Int) % 4294967296).toNat = i := by omega

theorem pt_lload {i : Nat} {env : List (Bytes × Obj)} {x : Bytes} (h : Pt K vm0 ρ0 p ws s vm) (l : LnAt K p (.num 41 i) q) (hs : s.scope = .fn env) (hi : env[i]? = some (x, v))
    (hq : q < K.code.length) : ∃ vm', K.step vm = .ok vm' ∧ Pt K vm0 ρ0 q (v :: ws) s vm' := by
  obtain ⟨l, ha, rfl⟩ := l
  obtain ⟨vm1, ρ, as, h, hp, e, hv⟩ := h.go g l (op := .lload) rfl
  have hsc := h.sc
  rw [hs] at hsc
  obtain ⟨⟨_, hlim⟩, ⟨f, fs, hf, hreps⟩, _⟩ := hsc
  have hlt := (List.getElem?_eq_some_iff.mp hi).1
  unfold Lang.limit at hlim
  rw [arg_small (by omega)] at ha
  have hlen := hreps.length_eq
  obtain ⟨b, hb⟩ : ∃ b, f.syms[i]? = some b := ⟨_, List.getElem?_eq_getElem (by omega)⟩
  have hrep : Rep ρ vm1.heap v b := by
    have := List.forall₂_iff_get.mp hreps
    have h2 := this.2 i hlt (by omega)
    rw [List.getElem?_eq_some_iff] at hi hb
    obtain ⟨_, hi⟩ := hi
    obtain ⟨_, hb⟩ := hb
    simp only [List.get_eq_getElem, hi, hb] at h2
    exact h2
  have e2 : VM.exec K.E K.F vm1 .lload = .ok { vm1 with pc := ((p + 5 : Nat) : Int), stack := b :: vm1.stack } := by
    refine (inc_arg g h.core.code h.pc ha hq hp).trans ?_
    unfold lload
    show (match vm1.frames with | [] => _ | f :: _ => _) = _
    rw [hf]
    simp only
    rw [if_neg (by omega), hb]
    rfl
  refine ⟨_, e.trans e2, h.next (hv _ e2) (Ext.refl _) rfl rfl rfl rfl rfl rfl rfl (as' := b :: as) ?_ fun _ _ => .cons hrep h.reps⟩
  show b :: vm1.stack = _
  rw [h.stack]
  rfl

/-- The variables after a store to slot `i`. -/
def storeEnv (env : List (Bytes × Obj)) (i : Nat) (x : Bytes) (v : Obj) : List (Bytes × Obj) := if i < env.length then env.set i (x, v) else env ++ [(x, v)]

theorem pt_lstore {i : Nat} {env : List (Bytes × Obj)} {x : Bytes} (h : Pt K vm0 ρ0 p (v :: ws) s vm) (l : LnAt K p (.num 42 i) q) (hs : s.scope = .fn env) (hi : i ≤ env.length)
    (hl : i < env.length ∨ env.length + 1 < Lang.limit) (hq : q < K.code.length) :
    ∃ vm', K.step vm = .ok vm' ∧ Pt K vm0 ρ0 q ws { s with scope := .fn (storeEnv env i x v) } vm' := by
  obtain ⟨l, ha, rfl⟩ := l
  obtain ⟨vm1, ρ, as, h, hp, e, hv⟩ := h.go g l (op := .lstore) rfl
  obtain ⟨a, as', c, rfl, rs, h1, h2, hst⟩ := peek_top g h
  have hsc := h.sc
  rw [hs] at hsc
  obtain ⟨⟨hpos, hlim⟩, ⟨f, fs, hf, hreps⟩, hret⟩ := hsc
  have hlim' : env.length < 2147483647 := hlim
  rw [arg_small (by omega)] at ha
  have hlen := hreps.length_eq
  have p1 := (peek_at g (vm := { vm1 with pc := ((p + 5 : Nat) : Int) }) (i := 0) (by show vm1.stack[0]? = _; rw [hst]; rfl) h1).1
  simp only [Nat.zero_add, Nat.cast_one] at p1
  have hpop : popN { vm1 with pc := ((p + 5 : Nat) : Int) } 1 = { vm1 with pc := ((p + 5 : Nat) : Int), stack := as' ++ vm0.stack } := by
    unfold popN
    show _ = _
    rw [hst]
    rfl
  have e2 : VM.exec K.E K.F vm1 .lstore = .ok { vm1 with pc := ((p + 5 : Nat) : Int), stack := as' ++ vm0.stack, frames := { f with syms := if i < f.syms.length then f.syms.set i a else f.syms ++ [a] } :: fs } := by
    refine (inc_arg g h.core.code h.pc ha hq hp).trans ?_
    unfold lstore
    rw [need_of g (by show (1 : Int) ≤ vm1.stack.length; rw [hst]; simp; omega), p1, Res.ok_bind, hpop]
    show (match vm1.frames with | [] => _ | f :: fs => _) = _
    rw [hf]
    by_cases hi2 : i < f.syms.length
    · simp only [if_pos hi2]
      rfl
    · simp only [if_neg hi2, if_pos (show i = f.syms.length by omega)]
      rfl
  have hi := hv _ e2
  have hr : List.Forall₂ (fun (e : Bytes × Obj) a => Rep ρ vm1.heap e.2 a) (storeEnv env i x v) (if i < f.syms.length then f.syms.set i a else f.syms ++ [a]) := by
    unfold storeEnv
    by_cases hi2 : i < env.length
    · rw [if_pos hi2, if_pos (by omega)]
      rw [List.forall₂_iff_get] at hreps ⊢
      refine ⟨by simpa using hlen, ?_⟩
      intro j hj1 hj2
      simp only [List.get_eq_getElem, List.getElem_set]
      by_cases hj : i = j
      · rw [if_pos hj, if_pos hj]
        exact ⟨c, h1, h2⟩
      · rw [if_neg hj, if_neg hj]
        exact hreps.2 j (by simpa using hj1) (by simpa using hj2)
    · rw [if_neg hi2, if_neg (by omega)]
      exact List.rel_append hreps (.cons ⟨c, h1, h2⟩ .nil)
  refine ⟨_, e.trans e2, ρ, as', ?_⟩
  exact {
    core := (h.core.ext (s' := s) hi h.core.ready rfl (fun _ _ h => h) (Ext.refl _) rfl rfl rfl).rescope _
    sc := by
      refine ⟨⟨?_, ?_⟩, ⟨_, fs, rfl, hr⟩, hret⟩
      · unfold storeEnv
        split
        · rw [List.length_set]; exact hpos
        · simp
      · unfold storeEnv
        split
        · rw [List.length_set]; exact hlim
        · rw [List.length_append]
          exact hl.resolve_left ‹_›
    pc := rfl
    stack := rfl
    reps := rs
    rest := h.rest
    tail := by
      have := h.tail
      rw [hf] at this
      exact this
    depth := by
      have := h.depth
      rw [hf] at this
      exact this
    evo := h.evo
    pre := h.pre
    floor := h.floor }

theorem pt_lremove {m : Nat} {env : List (Bytes × Obj)} (h : Pt K vm0 ρ0 p ws s vm) (l : LnAt K p (.num 43 m) q) (hs : s.scope = .fn env) (hm : m < env.length)
    (hq : q < K.code.length) : ∃ vm', K.step vm = .ok vm' ∧ Pt K vm0 ρ0 q ws { s with scope := .fn (env.take (env.length - m)) } vm' := by
  obtain ⟨l, ha, rfl⟩ := l
  obtain ⟨vm1, ρ, as, h, hp, e, hv⟩ := h.go g l (op := .lremove) rfl
  have hsc := h.sc
  rw [hs] at hsc
  obtain ⟨⟨hpos, hlim⟩, ⟨f, fs, hf, hreps⟩, hret⟩ := hsc
  have hlim' : env.length < 2147483647 := hlim
  rw [arg_small (by omega)] at ha
  have hlen := hreps.length_eq
  have e2 : VM.exec K.E K.F vm1 .lremove = .ok { vm1 with pc := ((p + 5 : Nat) : Int), frames := { f with syms := f.syms.take (f.syms.length - m) } :: fs } := by
    refine (inc_arg g h.core.code h.pc ha hq hp).trans ?_
    unfold lremove
    show (match vm1.frames with | [] => _ | f :: fs => _) = _
    rw [hf]
    simp only
    rw [if_neg (by omega)]
    rfl
  have hi := hv _ e2
  refine ⟨_, e.trans e2, ρ, as, ?_⟩
  exact {
    core := (h.core.ext (s' := s) hi h.core.ready rfl (fun _ _ h => h) (Ext.refl _) rfl rfl rfl).rescope _
    sc := by
      refine ⟨⟨?_, ?_⟩, ⟨_, fs, rfl, ?_⟩, hret⟩
      · rw [List.length_take]; omega
      · rw [List.length_take]
        unfold Lang.limit
        omega
      · rw [← hlen]
        exact List.forall₂_take _ hreps
    pc := rfl
    stack := h.stack
    reps := h.reps
    rest := h.rest
    tail := by
      have := h.tail
      rw [hf] at this
      exact this
    depth := by
      have := h.depth
      rw [hf] at this
      exact this
    evo := h.evo
    pre := h.pre
    floor := h.floor }

end

end Buzz.Sim
