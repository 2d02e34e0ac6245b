import Verif.VMCalls

/-
Where an instruction leaves the program counter and the symbols of the running function.
-/
namespace Buzz.VM

open Buzz.Msg Buzz.Heap

/-- The instructions with an argument. -/
def hasArg : Op → Bool
  | .pushf | .pushi | .pushs | .pushcn | .pushcc | .pushl | .lload | .lstore | .lremove | .jump | .jumpz | .jumpnz => true
  | _ => false

/-- The next machine of an instruction other than a call or a return that leaves the machine ready. -/
def Goes (E : Env) (vm : VM) (op : Op) (w : VM) : Prop :=
  if hasArg op then ∃ a, rd32 E.endian vm.code (vm.pc + 1).toNat = .ok a ∧
    (match op with
    | .jump => w.pc = intOfU32 a
    | .jumpz | .jumpnz => w.pc = vm.pc + 5 ∨ w.pc = intOfU32 a
    | .lstore => w.pc = vm.pc + 5 ∧ ∃ f fs f', vm.frames = f :: fs ∧ w.frames = f' :: fs ∧ a ≤ f.syms.length ∧
        f'.syms.length = if a = f.syms.length then f.syms.length + 1 else f.syms.length
    | .lremove => w.pc = vm.pc + 5 ∧ ∃ f fs f', vm.frames = f :: fs ∧ w.frames = f' :: fs ∧ f'.syms.length = f.syms.length - a
    | _ => w.pc = vm.pc + 5)
  else w.pc = vm.pc + 1

theorem binop_pc {E : Env} {b : Bin} {vm : VM} : Outcome (fun v => v.pc = vm.pc) (fun _ => True) (binop E b vm) := by
  unfold binop
  refine need_rule (n := 2) rfl (fun hl => ?_)
  refine (Outcome.any _).bind (fun x _ => ?_)
  refine (Outcome.any _).bind (fun y _ => ?_)
  split
  · split <;> rfl
  · exact (Outcome.any _).bind (fun v _ => rfl)

theorem unop_pc {u : Un} {vm : VM} : Outcome (fun v => v.pc = vm.pc) (fun _ => True) (unop u vm) := by
  unfold unop
  refine need_rule (n := 1) rfl (fun hl => ?_)
  refine (Outcome.any _).bind (fun x _ => ?_)
  split
  · split <;> rfl
  · exact (Outcome.any _).bind (fun v _ => rfl)

theorem pop_pc (vm : VM) : (pop vm).pc = vm.pc := by unfold pop; split <;> rfl

theorem dup_pc (vm : VM) : (dup vm).pc = vm.pc := by unfold dup; split <;> rfl

theorem pushL_pc (vm : VM) (r : Int) : (pushL vm r).pc = vm.pc := by unfold pushL; split <;> rfl

theorem pushS_pc (vm : VM) (r : Nat) : (pushS vm r).pc = vm.pc := by unfold pushS; split <;> rfl

theorem tput_pc {E : Env} {vm : VM} : Outcome (fun v => v.pc = vm.pc) (fun _ => True) (tput E vm) := by
  unfold tput
  refine need_rule (n := 3) rfl (fun hl => ?_)
  refine (Outcome.any _).bind (fun _ _ => ?_)
  refine (Outcome.any _).bind (fun _ _ => ?_)
  split
  · refine (Outcome.any _).bind (fun _ _ => ?_)
    refine (Outcome.any _).bind (fun _ _ => ?_)
    refine (Outcome.any _).bind (fun _ _ => ?_)
    refine (Outcome.any _).bind (fun _ _ => ?_)
    simp only
    split
    · split <;> exact (Outcome.any _).bind (fun _ _ => rfl)
    · rfl
  · rfl

theorem tget_pc {E : Env} {vm : VM} : Outcome (fun v => v.pc = vm.pc) (fun _ => True) (tget E vm) := by
  unfold tget
  refine need_rule (n := 2) rfl (fun hl => ?_)
  refine (Outcome.any _).bind (fun _ _ => ?_)
  split
  · refine (Outcome.any _).bind (fun _ _ => ?_)
    split
    · refine (Outcome.any _).bind (fun r _ => ?_)
      split <;> rfl
    · trivial
  · rfl

theorem gload_pc {vm : VM} : Outcome (fun v => v.pc = vm.pc) (fun _ => True) (gload vm) := by
  unfold gload
  refine need_rule (n := 1) rfl (fun hl => ?_)
  refine (Outcome.any _).bind (fun x _ => ?_)
  split
  · split <;> rfl
  · rfl

theorem gstore_pc {vm : VM} : Outcome (fun v => v.pc = vm.pc) (fun _ => True) (gstore vm) := by
  unfold gstore
  refine need_rule (n := 2) rfl (fun hl => ?_)
  refine (Outcome.any _).bind (fun x _ => ?_)
  split
  · exact (Outcome.any _).bind (fun _ _ => rfl)
  · rfl

theorem lload_pc {vm : VM} {a : Nat} : Outcome (fun v => v.pc = vm.pc) (fun _ => True) (lload vm a) := by
  unfold lload
  split
  · trivial
  · split
    · rfl
    · split
      · rfl
      · trivial

theorem exec_goes {E : Env} {F : CFuns} {vm : VM} (p : PcIn vm) (op : Op) (ho : op ∉ [Op.callc, .calls, .ret0, .ret1]) :
    Outcome (WhenReady (Goes E vm op)) (fun _ => True) (exec E F vm op) := by
  have plain : ∀ {op : Op} {r : Res VM}, hasArg op = false → Outcome (fun v => v.pc = vm.pc) (fun _ => True) r → Outcome (WhenReady (Goes E vm op)) (fun _ => True) (do
        let v ← r
        incPc v pure) := by
    intro op r ho h
    refine h.bind (fun v hb => ?_)
    exact incPc_pure (fun _ => by unfold Goes; rw [if_neg (by simp [ho])]; exact congrArg (· + 1) hb)
  have plain2 : ∀ {op : Op} {r : Res VM}, hasArg op = false → Outcome (fun v => v.pc = vm.pc) (fun _ => True) r → Outcome (WhenReady (Goes E vm op)) (fun _ => True) (do
        let v ← r
        ifReady v (fun v => incPc v pure)) := by
    intro op r ho h
    refine h.bind (fun v hb => ?_)
    exact ifReady_ready (fun _ => incPc_pure (fun _ => by unfold Goes; rw [if_neg (by simp [ho])]; exact congrArg (· + 1) hb))
  have inc : ∀ {op : Op} {k : VM → Res VM}, hasArg op = false → Outcome (fun v => v.pc = vm.pc + 1) (fun _ => True) (k { vm with pc := vm.pc + 1 }) →
      Outcome (WhenReady (Goes E vm op)) (fun _ => True) (incPc vm k) := by
    intro op k ho h
    refine incPc_ready (h.mono (fun v hv _ => by unfold Goes; rw [if_neg (by simp [ho])]; exact hv) (fun _ h => h))
  have arg : ∀ {op : Op} {k : VM → Nat → Res VM}, hasArg op = true →
      (∀ v a, v = { vm with pc := vm.pc + 1 + 4 } → rd32 E.endian vm.code (vm.pc + 1).toNat = .ok a → Outcome (WhenReady (Goes E vm op)) (fun _ => True) (k v a)) →
      Outcome (WhenReady (Goes E vm op)) (fun _ => True) (incPc vm (fun v => getArg E v k)) := by
    intro op k ho h
    refine incPc_ready ?_
    unfold getArg
    simp only
    split
    · intro h; cases h
    · obtain ⟨a, h1, h2⟩ := rd32_ok (h := E.endian) (buf := vm.code) (i := (vm.pc + 1).toNat) (by have := p.1; omega)
      rw [h1, Res.ok_bind]
      exact h _ a rfl h1
  have five : vm.pc + 1 + 4 = vm.pc + 5 := by omega
  have argP : ∀ {op : Op} {k : VM → Nat → Res VM}, hasArg op = true → op ∉ [Op.jump, .jumpz, .jumpnz, .lstore, .lremove] →
      (∀ v a, v = { vm with pc := vm.pc + 1 + 4 } → Outcome (fun w => w.pc = v.pc) (fun _ => True) (k v a)) →
      Outcome (WhenReady (Goes E vm op)) (fun _ => True) (incPc vm (fun v => getArg E v k)) := by
    intro op k ho hn h
    refine arg ho (fun v a hv ha => (h v a hv).mono (fun w hw _ => ?_) (fun _ h => h))
    subst hv
    have hw : w.pc = vm.pc + 5 := by rw [hw]; exact five
    unfold Goes
    rw [if_pos ho]
    refine ⟨a, ha, ?_⟩
    split
    all_goals first | exact hw | exact absurd (by simp) hn
  cases op with
  | nop => exact plain (r := .ok vm) rfl rfl
  | done => intro h; cases h
  | pushnil => exact inc rfl rfl
  | dup => exact inc rfl (dup_pc _)
  | pop => exact plain2 (r := .ok (pop vm)) rfl (pop_pc vm)
  | ret0 => simp at ho
  | ret1 => simp at ho
  | bin b => exact plain rfl binop_pc
  | un u => exact plain rfl unop_pc
  | gload => exact inc rfl gload_pc
  | gstore => exact inc rfl gstore_pc
  | pusht => exact plain (r := .ok (pushT vm)) rfl rfl
  | tput => exact plain2 rfl tput_pc
  | tget => exact plain2 rfl tget_pc
  | callc => simp at ho
  | calls => simp at ho
  | pushf => exact argP rfl (by simp) (fun v a _ => rfl)
  | pushi => exact argP rfl (by simp) (fun v a _ => rfl)
  | pushs => exact argP rfl (by simp) (fun v a _ => pushS_pc _ _)
  | pushcn => exact argP rfl (by simp) (fun v a _ => rfl)
  | pushcc => exact argP rfl (by simp) (fun v a _ => rfl)
  | pushl => exact argP rfl (by simp) (fun v a _ => pushL_pc _ _)
  | lload => exact argP rfl (by simp) (fun v a _ => lload_pc)
  | lstore =>
    refine arg rfl (fun v a hv ha => ?_)
    unfold lstore
    refine need_rule (n := 1) (fun h => by cases h) (fun hl => ?_)
    refine (Outcome.any _).bind (fun x _ => ?_)
    subst hv
    split
    · trivial
    · rename_i f fs hf
      have hf : vm.frames = f :: fs := hf
      split
      · rename_i hlt
        intro _
        refine ⟨a, ha, five, f, fs, { f with syms := f.syms.set a x }, hf, rfl, by omega, ?_⟩
        rw [if_neg (by omega)]
        simp
      · split
        · rename_i heq
          intro _
          refine ⟨a, ha, five, f, fs, { f with syms := f.syms ++ [x] }, hf, rfl, by omega, ?_⟩
          rw [if_pos heq]
          simp
        · trivial
  | lremove =>
    refine arg rfl (fun v a hv ha => ?_)
    unfold lremove
    subst hv
    split
    · trivial
    · rename_i f fs hf
      have hf : vm.frames = f :: fs := hf
      simp only
      split
      · intro h; cases h
      · intro _
        exact ⟨a, ha, five, f, fs, _, hf, rfl, by simp⟩
  | jump =>
    refine arg rfl (fun v a hv ha => assertPc_ready ?_)
    intro _
    exact ⟨a, ha, rfl⟩
  | jumpz =>
    refine arg rfl (fun v a hv ha => ?_)
    unfold jumpIf
    refine need_rule (n := 1) (fun h => by cases h) (fun hl => ?_)
    refine (Outcome.any _).bind (fun x _ => ?_)
    split
    · refine assertPc_ready ?_
      intro _
      exact ⟨a, ha, .inr (pop_pc _)⟩
    · intro _
      subst hv
      exact ⟨a, ha, .inl ((pop_pc _).trans five)⟩
  | jumpnz =>
    refine arg rfl (fun v a hv ha => ?_)
    unfold jumpIf
    refine need_rule (n := 1) (fun h => by cases h) (fun hl => ?_)
    refine (Outcome.any _).bind (fun x _ => ?_)
    split
    · refine assertPc_ready ?_
      intro _
      exact ⟨a, ha, .inr (pop_pc _)⟩
    · intro _
      subst hv
      exact ⟨a, ha, .inl ((pop_pc _).trans five)⟩

/-- The same for a step. -/
theorem step_goes {E : Env} {F : CFuns} {vm w : VM} {op : Op} (i : VInv vm) (hr : vm.state = .ready) (hp : PcIn vm) (hf : Fetched vm op)
    (ho : op ∉ [Op.callc, .calls, .ret0, .ret1]) (h : step E F vm = .ok w) (hr' : w.state = .ready) : Goes E vm op w := by
  obtain ⟨h', sm', e, j, hb, hk, hst⟩ := collect_spec i
  unfold step at h
  rw [if_neg (by simp [hr]), e, Res.ok_bind] at h
  obtain ⟨n, hn, hop⟩ := hf
  have hfe : VM.fetch { vm with heap := h', strings := sm' } = .ok n := by
    unfold VM.fetch
    rw [if_neg (by have := hp.1; simp only; omega)]
    exact hn
  rw [hfe, Res.ok_bind, hop] at h
  have m := exec_goes (E := E) (F := F) (vm := { vm with heap := h', strings := sm' }) hp op ho
  rw [show exec E F { vm with heap := h', strings := sm' } op = .ok w from h] at m
  exact m hr'

end Buzz.VM
