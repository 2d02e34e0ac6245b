import Verif.Apart

/-
Only tables are ever changed: objects of other types stay as they are while they are held.
-/
namespace Buzz.VM

open Buzz.F32 Buzz.Msg Buzz.Heap Buzz.Props

/-- Objects other than tables are still there, and addresses that have been given back are not used again. -/
structure Fix (h h' : Heap) : Prop where
  kept : ∀ a c, (∀ t, c ≠ .tab t) → Holds h a c → Holds h' a c
  brk : h.brk ≤ h'.brk
  old : ∀ a, a < h.brk → Live h' a → Live h a

theorem Fix.refl (h : Heap) : Fix h h := ⟨fun _ _ _ h => h, le_refl _, fun _ _ h => h⟩

theorem Fix.trans {h h' h'' : Heap} (a : Fix h h') (b : Fix h' h'') : Fix h h'' :=
  ⟨fun x c hc hx => b.kept x c hc (a.kept x c hc hx), le_trans a.brk b.brk, fun x hx hl => a.old x hx (b.old x (lt_of_lt_of_le hx a.brk) hl)⟩

/-- New objects are placed above all others. -/
def Below (h : Heap) : Prop := ∀ a c, Holds h a c → a < h.brk

/-- Objects other than tables are kept, if new objects are placed elsewhere; and they still are. -/
def Firm (vm w : VM) : Prop := Below vm.heap → Below w.heap ∧ Fix vm.heap w.heap

theorem Firm.same {vm w : VM} (h : w.heap = vm.heap := by rfl) : Firm vm w := fun b => by rw [h]; exact ⟨b, .refl _⟩

theorem Firm.trans {u v w : VM} (a : Firm u v) (b : Firm v w) : Firm u w := fun h =>
  ⟨(b (a h).1).1, (a h).2.trans (b (a h).1).2⟩

theorem below_newobj {h : Heap} (b : Below h) (c : Cell) : Below (newobj h c).1 := fun a d hd => by
  rcases holds_newobj hd with h1 | ⟨h1, _⟩
  · exact Nat.lt_succ_of_lt (b a d h1)
  · rw [h1]; exact Nat.lt_succ_self _

theorem below_write {h : Heap} (b : Below h) (a : Nat) (c : Cell) : Below (write h a c) := by
  rintro x d ⟨m, h1, h2⟩
  rw [get_write] at h1
  split at h1
  · obtain ⟨m', h3, _⟩ := Option.map_eq_some_iff.mp h1
    exact b x _ ⟨m', h3, rfl⟩
  · exact b x d ⟨m, h1, h2⟩

theorem fix_write {h : Heap} {a : Nat} {c : Cell} (ha : ∀ d, Holds h a d → ∃ t, d = .tab t) : Fix h (write h a c) := by
  refine ⟨?_, le_refl _, fun x _ hl => ?_⟩
  swap
  · obtain ⟨d, m, h1, h2⟩ := hl
    rw [get_write] at h1
    split at h1
    · obtain ⟨m', h3, _⟩ := Option.map_eq_some_iff.mp h1
      exact ⟨_, m', h3, rfl⟩
    · exact ⟨d, m, h1, h2⟩
  rintro x d hd ⟨m, h1, h2⟩
  refine ⟨m, ?_, h2⟩
  rw [get_write]
  split
  · rename_i hx
    subst hx
    obtain ⟨t, ht⟩ := ha d ⟨m, h1, h2⟩
    exact absurd ht (hd t)
  · exact h1

theorem Firm.new {vm w : VM} {c : Cell} (h : w.heap = (newobj vm.heap c).1 := by rfl) : Firm vm w := fun b => by
  rw [h]
  refine ⟨below_newobj b c, fun _ _ _ h => newobj_holds h, Nat.le_succ _, fun x hx ⟨d, hd⟩ => ?_⟩
  rcases holds_newobj hd with h1 | ⟨h1, _⟩
  · exact ⟨d, h1⟩
  · rw [h1] at hx; exact absurd hx (Nat.lt_irrefl _)

theorem Firm.write {vm w : VM} {a : Nat} {t : Table.Tbl (Nat × Nat)} {c : Cell} (ht : Holds vm.heap a (.tab t)) (h : w.heap = Heap.write vm.heap a c := by rfl) : Firm vm w := fun b => by
  rw [h]; exact ⟨below_write b a c, fix_write fun d hd => ⟨t, holds_inj hd ht⟩⟩

abbrev FirmR (vm : VM) (r : Res VM) : Prop := Outcome (Firm vm) (fun _ => True) r

theorem firm_need {vm v : VM} {n : Int} {k : Res VM} (h : Firm vm v) (hk : FirmR vm k) : FirmR vm (need v n k) := by
  unfold need
  split
  · exact h.trans .same
  · exact hk

theorem firm_assert {vm v : VM} {k : VM → Res VM} (h : Firm vm v) (hk : FirmR vm (k v)) : FirmR vm (assertPc v k) := by
  unfold assertPc
  split
  · exact h.trans .same
  · exact hk

theorem firm_inc {vm v : VM} {k : VM → Res VM} (h : Firm vm v) (hk : ∀ w, Firm vm w → FirmR vm (k w)) : FirmR vm (incPc v k) := by
  unfold incPc
  exact firm_assert (h.trans .same) (hk _ (h.trans .same))

theorem firm_ready {vm v : VM} {k : VM → Res VM} (h : Firm vm v) (hk : FirmR vm (k v)) : FirmR vm (ifReady v k) := by
  unfold ifReady
  split
  · exact hk
  · exact h

theorem firm_arg {E : Env} {vm v : VM} {k : VM → Nat → Res VM} (h : Firm vm v) (hk : ∀ w a, Firm vm w → FirmR vm (k w a)) :
    FirmR vm (getArg E v k) := by
  unfold getArg
  split
  · exact h.trans .same
  · exact (Outcome.any _).bind (fun a _ => hk _ a (h.trans .same))

theorem firm_bind {α : Type} {vm : VM} {r : Res α} {k : α → Res VM} (hk : ∀ x, FirmR vm (k x)) : FirmR vm (r >>= k) :=
  (Outcome.any r).bind (fun x _ => hk x)

theorem firm_eq {α : Type} {vm : VM} {r : Res α} {k : α → Res VM} (hk : ∀ x, r = .ok x → FirmR vm (k x)) : FirmR vm (r >>= k) := by
  cases r with
  | ok v => exact hk v rfl
  | ub => trivial
  | abort => trivial
  | hang => trivial

theorem firm_then {vm : VM} {r : Res VM} {k : VM → Res VM} (h : FirmR vm r) (hk : ∀ w, Firm vm w → FirmR vm (k w)) : FirmR vm (r >>= k) := h.bind hk

theorem firm_from {u v : VM} {r : Res VM} (h : Firm u v) (hr : FirmR v r) : FirmR u r := hr.mono (fun _ hx => h.trans hx) (fun _ h => h)

/-- Repeated case distinction in a definition that creates at most one object. -/
macro "firm" : tactic => `(tactic| repeat' first | trivial | exact Firm.same | exact Firm.new | (apply firm_need Firm.same) | (apply firm_bind; intro _) | split)

theorem binop_firm {E : Env} {b : Bin} (vm : VM) : FirmR vm (binop E b vm) := by
  unfold binop
  refine firm_need .same (firm_bind fun _ => firm_bind fun _ => ?_)
  split
  · split <;> exact Firm.same
  · exact firm_bind fun _ => Firm.new
theorem unop_firm {u : Un} (vm : VM) : FirmR vm (unop u vm) := by
  unfold unop
  refine firm_need .same (firm_bind fun _ => ?_)
  split
  · split <;> exact Firm.same
  · exact firm_bind fun _ => Firm.new
theorem pop_firm (vm : VM) : Firm vm (pop vm) := by unfold pop; firm
theorem dup_firm (vm : VM) : Firm vm (dup vm) := by unfold dup; firm
theorem pushS_firm (vm : VM) (a : Nat) : Firm vm (pushS vm a) := by unfold pushS; firm
theorem gload_firm (vm : VM) : FirmR vm (gload vm) := by unfold gload; firm
theorem gstore_firm (vm : VM) : FirmR vm (gstore vm) := by unfold gstore; firm
theorem lload_firm (vm : VM) (n : Nat) : FirmR vm (lload vm n) := by unfold lload; firm
theorem lstore_firm (vm : VM) (n : Nat) : FirmR vm (lstore vm n) := by unfold lstore; firm
theorem lremove_firm (vm : VM) (n : Nat) : FirmR vm (lremove vm n) := by unfold lremove; firm
theorem ret0_firm (vm : VM) : FirmR vm (ret0 vm) := by unfold ret0 retTo; firm
theorem ret1_firm (vm : VM) : FirmR vm (ret1 vm) := by unfold ret1 retTo; firm

theorem jumpIf_firm (vm : VM) (b : Bool) (a : Nat) : FirmR vm (jumpIf vm b a) := by
  unfold jumpIf
  apply firm_need .same
  apply firm_bind
  intro x
  split
  · exact firm_assert .same ((show Firm vm _ from .same).trans (pop_firm _))
  · exact pop_firm vm

theorem pushC_firm (vm : VM) (r : Int) (n : Bool) : Firm vm (pushC vm r n) := fun b => by
  have b1 := below_newobj b (.clo n r [])
  have b2 := below_newobj b1 (.atom .nil)
  refine ⟨below_write b2 _ _, fun a c _ hc => ?_, by show vm.heap.brk ≤ vm.heap.brk + 1 + 1; omega, fun a ha ⟨d, m, h1, h2⟩ => ?_⟩
  swap
  · have h1 : FMap.get (Heap.write _ _ _).objs a = _ := h1
    rw [get_write, if_neg] at h1
    · rcases holds_newobj ⟨m, h1, h2⟩ with h3 | ⟨h3, _⟩
      · rcases holds_newobj h3 with h3 | ⟨h3, _⟩
        · exact ⟨d, h3⟩
        · rw [h3] at ha; exact absurd ha (Nat.lt_irrefl _)
      · have h3 : a = vm.heap.brk + 1 := h3
        omega
    · intro e
      rw [e] at ha
      exact absurd ha (Nat.lt_irrefl _)
  obtain ⟨m, h1, h2⟩ := newobj_holds (c := .atom .nil) (newobj_holds (c := .clo n r []) hc)
  refine ⟨m, ?_, h2⟩
  show FMap.get (Heap.write _ _ _).objs a = _
  rw [get_write, if_neg]
  · exact h1
  · intro e
    exact absurd (b a c hc) (by rw [e]; exact Nat.lt_irrefl _)

theorem pushL_firm (vm : VM) (r : Int) : Firm vm (pushL vm r) := by
  unfold pushL
  split
  · exact .new
  · exact pushC_firm vm r true

theorem tput_firm {E : Env} (vm : VM) : FirmR vm (tput E vm) := by
  unfold tput
  refine firm_need .same (firm_eq fun ta ha => firm_eq fun tc hc => ?_)
  obtain ⟨a, _, h1, h2⟩ := peekCell_mem hc
  rw [ha] at h1
  cases h1
  split
  · refine firm_bind fun _ => firm_bind fun _ => firm_bind fun _ => firm_bind fun _ => ?_
    dsimp only
    split
    · split
      · exact firm_bind fun _ => Firm.write h2
      · rename_i n r l
        refine firm_bind fun _ => ?_
        exact (Firm.new (vm := vm) (w := { vm with heap := (newobj vm.heap (.clo n r (ta :: l.tail))).1 })).trans (.write (newobj_holds h2))
      · exact firm_bind fun _ => Firm.write h2
    · exact Firm.same
  · exact Firm.same

theorem tget_firm {E : Env} (vm : VM) : FirmR vm (tget E vm) := by unfold tget; firm

/-- C functions that change no objects but tables. -/
def FFirm (F : CFuns) : Prop := ∀ n vm, FirmR vm (F n vm)

theorem enter_firm (vm : VM) (n : Nat) (l : List Nat) (sw : Bool) : Firm vm (enter vm n l sw) := .new (c := .atom (.int vm.pc))

theorem call_firm {F : CFuns} (hF : FFirm F) (vm : VM) (sw : Bool) : FirmR vm (call F sw vm) := by
  unfold call
  refine firm_need .same (firm_bind fun x => ?_)
  split
  · rename_i argn
    dsimp only
    split
    · trivial
    · refine firm_need .same (firm_bind fun c => ?_)
      split
      · rename_i native ref actrec
        split
        · exact Firm.same
        · have s : Firm vm (enter (popN vm 1) argn.toNat actrec sw) := (Firm.same (w := popN vm 1)).trans (enter_firm _ _ _ _)
          split
          · exact s.trans .same
          · split
            · trivial
            · exact firm_from s (hF _ _)
      · exact Firm.same
  · exact Firm.same

theorem firm_end {vm : VM} {r : Res VM} (h : FirmR vm r) : FirmR vm (r >>= fun vm => ifReady vm (fun vm => assertPc vm pure)) :=
  firm_then h fun _ h => firm_ready h (firm_assert h h)

theorem exec_firm {E : Env} {F : CFuns} (hF : FFirm F) (vm : VM) (op : Op) : FirmR vm (exec E F vm op) := by
  have r : Firm vm vm := .same
  cases op with
  | nop => exact firm_inc r (fun _ h => h)
  | done => exact Firm.same
  | pushnil => exact firm_inc r (fun w h => h.trans .new)
  | dup => exact firm_inc r (fun w h => h.trans (dup_firm w))
  | pop => exact firm_ready (k := fun vm => incPc vm pure) (pop_firm vm) (firm_inc (v := VM.pop vm) (k := pure) (pop_firm vm) (fun _ h => h))
  | ret0 => exact firm_end (ret0_firm vm)
  | ret1 => exact firm_end (ret1_firm vm)
  | bin b => exact firm_then (binop_firm vm) (fun w h => firm_inc h (fun _ h => h))
  | un u => exact firm_then (unop_firm vm) (fun w h => firm_inc h (fun _ h => h))
  | gload => exact firm_inc r (fun w h => firm_from h (gload_firm w))
  | gstore => exact firm_inc r (fun w h => firm_from h (gstore_firm w))
  | pusht => exact firm_inc (v := pushT vm) (k := pure) .new (fun _ h => h)
  | tput => exact firm_then (tput_firm vm) (fun w h => firm_ready h (firm_inc h (fun _ h => h)))
  | tget => exact firm_then (tget_firm vm) (fun w h => firm_ready h (firm_inc h (fun _ h => h)))
  | callc => exact firm_inc r (fun w h => firm_end (firm_from h (call_firm hF w false)))
  | calls => exact firm_inc r (fun w h => firm_end (firm_from h (call_firm hF w true)))
  | pushf => exact firm_inc r (fun w h => firm_arg h (fun x a h => h.trans .new))
  | pushi => exact firm_inc r (fun w h => firm_arg h (fun x a h => h.trans .new))
  | pushs => exact firm_inc r (fun w h => firm_arg h (fun x a h => h.trans (pushS_firm x a)))
  | pushcn => exact firm_inc r (fun w h => firm_arg h (fun x a h => h.trans (pushC_firm x _ _)))
  | pushcc => exact firm_inc r (fun w h => firm_arg h (fun x a h => h.trans (pushC_firm x _ _)))
  | pushl => exact firm_inc r (fun w h => firm_arg h (fun x a h => h.trans (pushL_firm x _)))
  | lload => exact firm_inc r (fun w h => firm_arg h (fun x a h => firm_from h (lload_firm x a)))
  | lstore => exact firm_inc r (fun w h => firm_arg h (fun x a h => firm_from h (lstore_firm x a)))
  | lremove => exact firm_inc r (fun w h => firm_arg h (fun x a h => firm_from h (lremove_firm x a)))
  | jump => exact firm_inc r (fun w h => firm_arg h (fun x a h => firm_assert (h.trans .same) (h.trans .same)))
  | jumpz => exact firm_inc r (fun w h => firm_arg h (fun x a h => firm_from h (jumpIf_firm x _ a)))
  | jumpnz => exact firm_inc r (fun w h => firm_arg h (fun x a h => firm_from h (jumpIf_firm x _ a)))

theorem inv_below {h : Heap} (i : Inv h) : Below h := by
  rintro a c ⟨m, h1, _⟩
  exact i.brk _ (FMap.mem_of_get h1)

/-- What was there before a collection, and where new objects are placed. -/
theorem collect_old {vm w : VM} (i : VInv vm) (e : collect vm = .ok w) : (∀ a c, Holds w.heap a c → Holds vm.heap a c) ∧ w.heap.brk = vm.heap.brk := by
  obtain ⟨h', sm', e', iv, h1, h2, _⟩ := collect_spec i
  rw [e'] at e
  cases e
  refine ⟨h1, ?_⟩
  by_cases hfull : vm.heap.maxObjs ≤ vm.heap.objs.length
  · obtain ⟨h'', sm'', g1, _, _, g2, _⟩ := gc_spec i.heap i.strings (fun a ha => holds_isSome.mpr (i.roots a ha)) hfull
    simp only [collect, g1, Res.ok_bind, Res.pure_eq, Res.ok.injEq, VM.mk.injEq] at e'
    rw [← e'.2.2.2.2.2.2.2.2.2.1]
    exact g2
  · unfold collect gc at e'
    rw [if_pos (by omega)] at e'
    simp only [Res.ok_bind, Res.pure_eq, Res.ok.injEq, VM.mk.injEq] at e'
    rw [← e'.2.2.2.2.2.2.2.2.2.1]

/-- An object other than a table is never changed, and no other object takes its place. -/
structure Stays (h h' : Heap) : Prop where
  brk : h.brk ≤ h'.brk
  old : ∀ a, a < h.brk → Live h' a → Live h a
  same : ∀ a c, (∀ t, c ≠ .tab t) → Holds h a c → ∀ d, Holds h' a d → d = c

theorem Stays.refl (h : Heap) : Stays h h := ⟨le_refl _, fun _ _ h => h, fun _ _ _ h _ h' => holds_inj h' h⟩

theorem Stays.trans {h h' h'' : Heap} (b : Below h) (x : Stays h h') (y : Stays h' h'') : Stays h h'' where
  brk := le_trans x.brk y.brk
  old a ha hl := x.old a ha (y.old a (lt_of_lt_of_le ha x.brk) hl)
  same a c hc ha d hd := by
    obtain ⟨e, he⟩ := y.old a (lt_of_lt_of_le (b a c ha) x.brk) ⟨d, hd⟩
    have := x.same a c hc ha e he
    subst this
    exact y.same a _ hc he d hd

theorem Fix.stays {h h' : Heap} (x : Fix h h') : Stays h h' := ⟨x.brk, x.old, fun a c hc ha _ hd => holds_inj hd (x.kept a c hc ha)⟩

theorem collect_stays {vm w : VM} (i : VInv vm) (e : collect vm = .ok w) : Stays vm.heap w.heap := by
  obtain ⟨h1, h2⟩ := collect_old i e
  exact ⟨h2 ▸ le_refl _, fun a _ ⟨c, hc⟩ => ⟨c, h1 a c hc⟩, fun a c _ ha d hd => holds_inj (h1 a d hd) ha⟩

end Buzz.VM
