import Verif.VMStep

/-
Calls and returns: what a step does to the stacks below the current one, and what a run inside a called function leaves behind.
-/
namespace Buzz.VM

open Buzz.F32 Buzz.Msg Buzz.Heap Buzz.Props

/-- Integers, floats, strings, nil and user data in the heap are still there. -/
def AtomsKept (h h' : Heap) : Prop := ∀ a o, Holds h a (.atom o) → Holds h' a (.atom o)

/-- Same stacks below the current one, same symbols, same everything but stack, heap, strings, program counter and state. -/
structure Plain (vm vm' : VM) : Prop where
  same : Rest vm vm'
  atoms : AtomsKept vm.heap vm'.heap

theorem Plain.refl (vm : VM) : Plain vm vm := ⟨.refl _, fun _ _ h => h⟩

theorem Plain.trans {u v w : VM} (a : Plain u v) (b : Plain v w) : Plain u w := ⟨a.same.trans b.same, fun x o h => b.atoms x o (a.atoms x o h)⟩

theorem Outcome.any {α : Type} (r : Res α) : Outcome (fun _ => True) (fun _ => True) r := by
  cases r <;> trivial

/-- Only the heap and fields that do not matter for `Plain` differ. -/
theorem Plain.of {vm vm' : VM} (h1 : vm'.rest = vm.rest) (h2 : vm'.frames = vm.frames) (h3 : vm'.gsyms = vm.gsyms) (h4 : vm'.code = vm.code)
    (h5 : vm'.swarmstack = vm.swarmstack) (h6 : vm'.other = vm.other) (h7 : vm'.nfuns = vm.nfuns) (h8 : vm'.heap = vm.heap) : Plain vm vm' :=
  ⟨⟨h1, h2, h3, h4, h5, h6, h7⟩, fun a o h => by rw [h8]; exact h⟩

theorem Plain.err {vm v : VM} (p : Plain vm v) (e : Err) : Plain vm (setErr v e) := p.trans (.of rfl rfl rfl rfl rfl rfl rfl rfl)

theorem Plain.pop {vm v : VM} (p : Plain vm v) (n : Nat) : Plain vm (popN v n) := p.trans (.of rfl rfl rfl rfl rfl rfl rfl rfl)

theorem Plain.pushAddr {vm v : VM} (p : Plain vm v) (n : Nat) : Plain vm (pushAddr v n) := p.trans (.of rfl rfl rfl rfl rfl rfl rfl rfl)

theorem Plain.pc {vm v : VM} (p : Plain vm v) (n : Int) : Plain vm { v with pc := n } := p.trans (.of rfl rfl rfl rfl rfl rfl rfl rfl)

theorem Plain.push {vm v : VM} (p : Plain vm v) (i : Inv v.heap) (c : Cell) : Plain vm (push v c) :=
  p.trans ⟨⟨rfl, rfl, rfl, rfl, rfl, rfl, rfl⟩, fun _ _ h => holds_old i h⟩

theorem Plain.write {vm v : VM} (p : Plain vm v) {a : Nat} {c0 c : Cell} (h0 : Holds v.heap a c0) (hn : ∀ o, c0 ≠ .atom o) :
    Plain vm { v with heap := write v.heap a c } := by
  refine p.trans ⟨⟨rfl, rfl, rfl, rfl, rfl, rfl, rfl⟩, fun x o h => ?_⟩
  obtain ⟨m, h1, h2⟩ := h
  refine ⟨m, ?_, h2⟩
  simp only
  rw [get_write]
  split
  · rename_i hx
    subst hx
    obtain ⟨m', g1, g2⟩ := h0
    rw [h1] at g1; cases g1
    exact absurd (h2 ▸ g2).symm (hn o)
  · exact h1

theorem binop_plain {E : Env} {b : Bin} {vm : VM} (i : VInv vm) : Outcome (Plain vm) (fun _ => True) (binop E b vm) := by
  unfold binop
  refine need_rule (n := 2) ((Plain.refl _).err _) (fun hl => ?_)
  refine (Outcome.any _).bind (fun x _ => ?_)
  refine (Outcome.any _).bind (fun y _ => ?_)
  split
  · split
    · exact (Plain.refl _).err _
    · exact ((Plain.refl _).pop 2).err _
  · refine (Outcome.any _).bind (fun v _ => ?_)
    exact ((Plain.refl _).pop 2).push i.heap _

theorem unop_plain {u : Un} {vm : VM} (i : VInv vm) : Outcome (Plain vm) (fun _ => True) (unop u vm) := by
  unfold unop
  refine need_rule (n := 1) ((Plain.refl _).err _) (fun hl => ?_)
  refine (Outcome.any _).bind (fun x _ => ?_)
  split
  · split
    · exact (Plain.refl _).err _
    · exact ((Plain.refl _).pop 1).err _
  · refine (Outcome.any _).bind (fun v _ => ?_)
    exact ((Plain.refl _).pop 1).push i.heap _

theorem pop_plain (vm : VM) : Plain vm (pop vm) := by
  unfold pop
  split
  · exact (Plain.refl _).err _
  · exact (Plain.refl _).pop _

theorem dup_plain (vm : VM) : Plain vm (dup vm) := by
  unfold dup
  split
  · exact (Plain.refl _).err _
  · exact (Plain.refl _).pushAddr _

theorem pushC_plain {vm : VM} (i : VInv vm) {r : Int} (hr : I32 r) (n : Bool) : Plain vm (pushC vm r n) := by
  have i1 : VInv { vm with heap := (Heap.newobj vm.heap (.clo n r [])).1 } := i.newobj ⟨hr, by simp⟩
  have h1 : Holds (Heap.newobj (Heap.newobj vm.heap (.clo n r [])).1 (.atom .nil)).1 (Heap.newobj vm.heap (.clo n r [])).2 (.clo n r []) :=
    holds_old i1.heap (holds_new i.heap _)
  have p1 : Plain vm { vm with heap := (Heap.newobj (Heap.newobj vm.heap (.clo n r [])).1 (.atom .nil)).1 } :=
    ⟨⟨rfl, rfl, rfl, rfl, rfl, rfl, rfl⟩, fun _ _ h => holds_old i1.heap (holds_old i.heap h)⟩
  exact (p1.write h1 (fun o h => Cell.noConfusion h)).trans (.of rfl rfl rfl rfl rfl rfl rfl rfl)

theorem pushL_plain {vm : VM} (i : VInv vm) {r : Int} (hr : I32 r) : Plain vm (pushL vm r) := by
  unfold pushL
  split
  · exact (Plain.refl _).push i.heap _
  · exact pushC_plain i hr _

theorem pushS_plain {vm : VM} (i : VInv vm) (r : Nat) : Plain vm (pushS vm r) := by
  unfold pushS
  split
  · exact (Plain.refl _).push i.heap _
  · exact (Plain.refl _).err _

theorem tput_plain {E : Env} {vm : VM} (i : VInv vm) : Outcome (Plain vm) (fun _ => True) (tput E vm) := by
  unfold tput
  refine need_rule (n := 3) ((Plain.refl _).err _) (fun hl => ?_)
  obtain ⟨a1, c1, g1, k1, q1, r1, p1⟩ := peek_ok i (n := 0) (by omega)
  obtain ⟨a2, c2, g2, k2, q2, r2, p2⟩ := peek_ok i (n := 1) (by omega)
  obtain ⟨a3, c3, g3, k3, q3, r3, p3⟩ := peek_ok i (n := 2) (by omega)
  simp only [Nat.zero_add, Nat.cast_one, Nat.reduceAdd, Nat.cast_ofNat] at p1 p2 p3 q1 q2 q3 r1 r2 r3
  simp only [q3, r3, Res.ok_bind]
  have hp : Plain vm (popN vm 3) := (Plain.refl _).pop 3
  cases c3 with
  | atom o => exact (Plain.refl _).err _
  | clo n r l => exact (Plain.refl _).err _
  | tab t =>
    simp only [q1, r1, q2, p2, Res.ok_bind]
    split
    · split
      · refine (Outcome.any _).bind (fun t' _ => ?_)
        exact hp.write k3 (fun o h => Cell.noConfusion h)
      · refine (Outcome.any _).bind (fun t' _ => ?_)
        rename_i n r l _
        have : Plain vm { popN vm 3 with heap := (newobj (popN vm 3).heap (.clo n r (a3 :: l.tail))).1 } :=
          ⟨⟨rfl, rfl, rfl, rfl, rfl, rfl, rfl⟩, fun _ _ h => holds_old i.heap h⟩
        exact this.write (holds_old i.heap k3) (fun o h => Cell.noConfusion h)
      · refine (Outcome.any _).bind (fun t' _ => ?_)
        exact hp.write k3 (fun o h => Cell.noConfusion h)
    · exact hp.err _

theorem tget_plain {E : Env} {vm : VM} (i : VInv vm) : Outcome (Plain vm) (fun _ => True) (tget E vm) := by
  unfold tget
  refine need_rule (n := 2) ((Plain.refl _).err _) (fun hl => ?_)
  refine (Outcome.any _).bind (fun x _ => ?_)
  split
  · refine (Outcome.any _).bind (fun k _ => ?_)
    split
    · refine (Outcome.any _).bind (fun r _ => ?_)
      split
      · exact ((Plain.refl _).pop 2).pushAddr _
      · exact ((Plain.refl _).pop 2).push i.heap _
    · trivial
  · exact (Plain.refl _).err _

theorem gload_plain {vm : VM} (i : VInv vm) : Outcome (Plain vm) (fun _ => True) (gload vm) := by
  unfold gload
  refine need_rule (n := 1) ((Plain.refl _).err _) (fun hl => ?_)
  refine (Outcome.any _).bind (fun x _ => ?_)
  split
  · split
    · exact ((Plain.refl _).pop 1).pushAddr _
    · exact ((Plain.refl _).pop 1).push i.heap _
  · exact (Plain.refl _).err _

theorem lload_plain {vm : VM} (idx : Nat) : Outcome (Plain vm) (fun _ => True) (lload vm idx) := by
  unfold lload
  split
  · trivial
  · split
    · exact (Plain.refl _).err _
    · split
      · exact (Plain.refl _).pushAddr _
      · trivial

/-- Like `Plain`, but the symbols of the running function and the globals may change. -/
structure Flat (op : Op) (vm vm' : VM) : Prop where
  rest : vm'.rest = vm.rest
  code : vm'.code = vm.code
  swarmstack : vm'.swarmstack = vm.swarmstack
  other : vm'.other = vm.other
  nfuns : vm'.nfuns = vm.nfuns
  atoms : AtomsKept vm.heap vm'.heap
  below : vm'.frames.tail = vm.frames.tail
  swarm : vm'.frames.map (·.swarm) = vm.frames.map (·.swarm)
  gsyms : op ≠ .gstore → vm'.gsyms = vm.gsyms
  frames : op ∉ [Op.lstore, .lremove] → vm'.frames = vm.frames

theorem Plain.flat {vm vm' : VM} (h : Plain vm vm') (op : Op) : Flat op vm vm' where
  rest := h.same.rest
  code := h.same.code
  swarmstack := h.same.swarmstack
  other := h.same.other
  nfuns := h.same.nfuns
  atoms := h.atoms
  below := by rw [h.same.frames]
  swarm := by rw [h.same.frames]
  gsyms := fun _ => h.same.gsyms
  frames := fun _ => h.same.frames

/-- The function returns to its caller: its symbols and stack are removed, the caller's stack has the return address replaced by one
result, and the program counter is the return address. -/
structure Back (vm vm' : VM) : Prop where
  ex : ∃ f p s v, vm.frames = f :: vm'.frames ∧ vm.rest = (p :: s) :: vm'.rest ∧ vm'.stack = v :: s ∧
    Holds vm.heap p (.atom (.int vm'.pc)) ∧ vm'.swarmstack = if f.swarm then vm.swarmstack.tail else vm.swarmstack
  code : vm'.code = vm.code
  gsyms : vm'.gsyms = vm.gsyms
  other : vm'.other = vm.other
  nfuns : vm'.nfuns = vm.nfuns
  atoms : AtomsKept vm.heap vm'.heap

/-- A script closure is entered: its `n` arguments, itself, the self object and the count are taken from the stack, its symbols are the
activation record followed by the arguments, a new stack begins, and the return address lies on the caller's stack. -/
structure Entered (sw : Bool) (vm vm' : VM) : Prop where
  ex : ∃ n ref l p, Val vm 0 (.int (n : Nat)) ∧ At vm (n + 1) (.clo true ref l) ∧ n + 2 ≤ vm.stack.length ∧ vm'.pc = ref ∧
    vm'.frames = ⟨l ++ ((vm.stack.drop 1).take n).reverse, sw⟩ :: vm.frames ∧ vm'.stack = [] ∧
    vm'.rest = (p :: vm.stack.drop (n + 3)) :: vm.rest ∧ Holds vm'.heap p (.atom (.int (vm.pc + 1)))
  code : vm'.code = vm.code
  gsyms : vm'.gsyms = vm.gsyms
  other : vm'.other = vm.other
  nfuns : vm'.nfuns = vm.nfuns
  swarmstack : vm'.swarmstack = vm.swarmstack
  atoms : AtomsKept vm.heap vm'.heap

/-- What an instruction that leaves the machine ready does. -/
inductive Moved (vm : VM) (op : Op) (vm' : VM) : Prop where
  | flat : Flat op vm vm' → op ∉ [Op.callc, .calls, .ret0, .ret1] → Moved vm op vm'
  | back : op ∈ [Op.ret0, .ret1] → Back vm vm' → Moved vm op vm'
  | enter {sw : Bool} : op = (if sw then Op.calls else .callc) → Entered sw vm vm' → Moved vm op vm'
  | cfun {n : Nat} {r : Int} {l : List Nat} : op ∈ [Op.callc, .calls] → Val vm 0 (.int n) → At vm (n + 1) (.clo false r l) → Moved vm op vm'

/-- An outcome in state ready. -/
def WhenReady (Q : VM → Prop) (vm : VM) : Prop := vm.state = .ready → Q vm

theorem incPc_ready {v : VM} {Q : VM → Prop} {k : VM → Res VM} (hk : Outcome (WhenReady Q) (fun _ => True) (k { v with pc := v.pc + 1 })) :
    Outcome (WhenReady Q) (fun _ => True) (incPc v k) := by
  unfold incPc assertPc
  simp only
  split
  · intro h; cases h
  · exact hk

theorem getArg_ready {E : Env} {v : VM} {Q : VM → Prop} {k : VM → Nat → Res VM} (hp : 0 ≤ v.pc)
    (hk : ∀ a, a < 4294967296 → Outcome (WhenReady Q) (fun _ => True) (k { v with pc := v.pc + 4 } a)) :
    Outcome (WhenReady Q) (fun _ => True) (getArg E v k) := by
  unfold getArg
  split
  · intro h; cases h
  · obtain ⟨a, h1, h2⟩ := rd32_ok (h := E.endian) (buf := v.code) (i := v.pc.toNat) (by omega)
    rw [h1, Res.ok_bind]
    exact hk a h2

theorem incPc_pure {v : VM} {Q : VM → Prop} (hq : v.state = .ready → Q { v with pc := v.pc + 1 }) : Outcome (WhenReady Q) (fun _ => True) (incPc v pure) :=
  incPc_ready (fun h => hq h)

theorem ifReady_ready {v : VM} {Q : VM → Prop} {k : VM → Res VM} (hk : v.state = .ready → Outcome (WhenReady Q) (fun _ => True) (k v)) :
    Outcome (WhenReady Q) (fun _ => True) (ifReady v k) := by
  unfold ifReady
  split
  · exact hk (by assumption)
  · rename_i h; intro h'; exact absurd h' h

theorem assertPc_ready {v : VM} {Q : VM → Prop} {k : VM → Res VM} (hk : Outcome (WhenReady Q) (fun _ => True) (k v)) :
    Outcome (WhenReady Q) (fun _ => True) (assertPc v k) := by
  unfold assertPc
  split
  · intro h; cases h
  · exact hk

theorem retTo_back {vm0 vm : VM} {f : Frame} {fs : List Frame} {s : List Nat} {r : List (List Nat)} (i : VInv vm0) (hf : vm0.frames = f :: fs) (hr : vm0.rest = s :: r)
    (hv : vm = { vm0 with swarmstack := if f.swarm then vm0.swarmstack.tail else vm0.swarmstack, frames := fs, stack := s, rest := r })
    (k : VM → VM) (hk : ∀ v, v.heap = vm0.heap → ∃ a, (k v).stack = a :: v.stack ∧ Plain v (k v) ∧ (k v).pc = v.pc ∧ (k v).state = v.state) :
    Outcome (WhenReady (Back vm0)) (fun _ => True) (retTo vm k) := by
  unfold retTo
  refine need_rule (n := 1) (fun h => by cases h) (fun hl => ?_)
  have hs : vm.stack = s := by rw [hv]
  have hh : vm.heap = vm0.heap := by rw [hv]
  cases s with
  | nil => rw [hs] at hl; simp at hl
  | cons p s =>
    obtain ⟨c, hc⟩ := i.rest (p :: s) (by rw [hr]; simp) p (by simp)
    have hpk : peek vm 1 = .ok (objOf p c) := by
      have hat : At vm 0 c := ⟨p, by rw [hs]; rfl, by rw [hh]; exact hc⟩
      obtain ⟨a, h1, h2, h3, h4, h5⟩ := hat.peekCell
      rw [hs] at h1
      cases h1
      exact h5
    rw [hpk, Res.ok_bind]
    split
    · rename_i v hov
      have hc' : Holds vm0.heap p (.atom (.int v)) := by
        cases c with
        | atom o => simp only [objOf] at hov; subst hov; exact hc
        | tab t => cases hov
        | clo n r l => cases hov
      obtain ⟨a, h1, h2, h3, h4⟩ := hk { popN vm 1 with pc := v } hh
      intro _
      refine ⟨⟨f, p, s, a, ?_, ?_, ?_, ?_, ?_⟩, ?_, ?_, ?_, ?_, ?_⟩
      · rw [h2.same.frames, hf, hv]; rfl
      · rw [h2.same.rest, hr, hv]; rfl
      · rw [h1]; simp [popN, hs]
      · rw [h3]; exact hc'
      · rw [h2.same.swarmstack, hv]; rfl
      · rw [h2.same.code, hv]; rfl
      · rw [h2.same.gsyms, hv]; rfl
      · rw [h2.same.other, hv]; rfl
      · rw [h2.same.nfuns, hv]; rfl
      · intro x o hx
        refine h2.atoms x o ?_
        show Holds vm.heap x _
        rw [hh]; exact hx
    · intro h; cases h

theorem ret0_back {vm : VM} (i : VInv vm) : Outcome (WhenReady (Back vm)) (fun _ => True) (ret0 vm) := by
  unfold ret0
  split
  · rename_i f fs s r hf hr
    exact retTo_back i hf hr rfl _ (fun v hv => ⟨_, rfl, (Plain.refl _).push (by rw [hv]; exact i.heap) _, rfl, rfl⟩)
  · trivial

theorem ret1_back {vm : VM} (i : VInv vm) : Outcome (WhenReady (Back vm)) (fun _ => True) (ret1 vm) := by
  unfold ret1
  split
  · trivial
  · rename_i f fs hf
    refine need_rule (n := 1) (fun h => by cases h) (fun hl => ?_)
    refine (Outcome.any _).bind (fun a _ => ?_)
    simp only
    split
    · trivial
    · rename_i s r hr
      exact retTo_back i hf hr rfl _ (fun v hv => ⟨_, rfl, (Plain.refl _).pushAddr _, rfl, rfl⟩)

theorem call_moved {F : CFuns} {vm0 vm : VM} (i : VInv vm) (sw : Bool) (hv : vm = { vm0 with pc := vm0.pc + 1 })
    {op : Op} (ho : op = if sw then .calls else .callc) :
    Outcome (WhenReady (Moved vm0 op)) (fun _ => True) (call F sw vm) := by
  have hop : op ∈ [Op.callc, .calls] := by subst ho; cases sw <;> simp
  unfold call
  refine need_rule (n := 1) (fun h => by cases h) (fun hl => ?_)
  obtain ⟨a1, c1, g1, k1, q1, r1, p1⟩ := peek_ok i (n := 0) (by omega)
  simp only [Nat.zero_add, Nat.cast_one] at p1
  rw [p1, Res.ok_bind]
  split
  · rename_i argn hv1
    simp only
    split
    · trivial
    · by_cases hneg : argn < 0
      · unfold need
        split
        · intro h; cases h
        · have : peekCell (popN vm 1) (argn + 1) = .ub := by
            have hp : peekAddr (popN vm 1) (argn + 1) = .ub := by
              unfold peekAddr
              rw [if_neg (by omega)]
            unfold peekCell
            rw [hp]; rfl
          rw [this]
          trivial
      · obtain ⟨n, rfl⟩ : ∃ n : Nat, argn = n := ⟨argn.toNat, by omega⟩
        have e : ((n : Int) + 1) = ((n + 1 : Nat) : Int) := by omega
        rw [e]
        refine need_rule (fun h => by cases h) (fun hl2 => ?_)
        obtain ⟨a2, c2, g2, k2, q2, r2, p2⟩ := peek_ok (i.popN 1) (n := n) (by omega)
        rw [r2, Res.ok_bind]
        have hv0 : Val vm0 0 (.int n) := ⟨a1, c1, by subst hv; exact g1, by subst hv; exact k1, hv1⟩
        have hat2 : At vm0 (n + 1) c2 := by
          subst hv
          refine ⟨a2, ?_, k2⟩
          have : (vm0.stack.drop 1)[n]? = some a2 := g2
          rw [List.getElem?_drop] at this
          rw [Nat.add_comm]; exact this
        have hlen : n + 2 ≤ vm0.stack.length := by
          obtain ⟨a, h, _⟩ := hat2
          have := (List.getElem?_eq_some_iff.mp h).1
          omega
        cases c2 with
        | atom o => intro h; cases h
        | tab t => intro h; cases h
        | clo native ref actrec =>
          simp only
          split
          · intro h; cases h
          · split
            · rename_i hnat
              subst hnat
              intro _
              refine .enter ho ⟨⟨n, ref, actrec, (newobj vm.heap (.atom (.int vm.pc))).2, hv0, hat2, hlen, rfl, ?_, rfl, ?_, ?_⟩, ?_, ?_, ?_, ?_, ?_, ?_⟩
              · subst hv; simp [enter, popN, pushInt, push]
              · subst hv
                simp only [enter, popN, pushInt, push, Int.toNat_natCast, List.drop_drop]
                rw [show 1 + (n + 2) = n + 3 by omega]
              · subst hv
                exact holds_new (i.popN 1).heap _
              · subst hv; rfl
              · subst hv; rfl
              · subst hv; rfl
              · subst hv; rfl
              · subst hv; rfl
              · subst hv
                intro x o hx
                exact holds_old (i.popN 1).heap hx
            · rename_i hnat
              have hnat : native = false := by simpa using hnat
              subst hnat
              split
              · trivial
              · exact (Outcome.any _).mono (fun v _ _ => .cfun hop hv0 hat2) (fun _ h => h)
  · intro h; cases h

/-- The shape of every instruction. -/
theorem exec_moved {E : Env} {F : CFuns} {vm : VM} (i : VInv vm) (p : PcIn vm) (op : Op) :
    Outcome (WhenReady (Moved vm op)) (fun _ => True) (exec E F vm op) := by
  have i1 : VInv { vm with pc := vm.pc + 1 } := i.setPc (by have := i.size; have := p.1; have := p.2; unfold I32; omega)
  have pl1 : ∀ {v : VM}, Plain vm v → ∀ {op : Op}, op ∉ [Op.callc, .calls, .ret0, .ret1] → Moved vm op v := fun {v} h {op} ho => .flat (Plain.flat h op) ho
  have back : ∀ {op : Op} {r : Res VM}, op ∈ [Op.ret0, .ret1] → Outcome (WhenReady (Back vm)) (fun _ => True) r →
      Outcome (WhenReady (Moved vm op)) (fun _ => True) (do
        let v ← r
        ifReady v (fun v => assertPc v pure)) := by
    intro op r ho h
    refine h.bind (fun v hb => ?_)
    refine ifReady_ready (fun hr => assertPc_ready ?_)
    intro _
    exact .back ho (hb hr)
  have plain : ∀ {op : Op} {r : Res VM}, op ∉ [Op.callc, .calls, .ret0, .ret1] → Outcome (Plain vm) (fun _ => True) r → Outcome (WhenReady (Moved vm op)) (fun _ => True) (do
        let v ← r
        incPc v pure) := by
    intro op r ho h
    refine h.bind (fun v hb => ?_)
    exact incPc_pure (fun _ => pl1 (hb.pc _) ho)
  have plain2 : ∀ {op : Op} {r : Res VM}, op ∉ [Op.callc, .calls, .ret0, .ret1] → Outcome (Plain vm) (fun _ => True) r → Outcome (WhenReady (Moved vm op)) (fun _ => True) (do
        let v ← r
        ifReady v (fun v => incPc v pure)) := by
    intro op r ho h
    refine h.bind (fun v hb => ?_)
    exact ifReady_ready (fun _ => incPc_pure (fun _ => pl1 (hb.pc _) ho))
  have inc : ∀ {op : Op} {k : VM → Res VM}, op ∉ [Op.callc, .calls, .ret0, .ret1] →
      Outcome (Plain { vm with pc := vm.pc + 1 }) (fun _ => True) (k { vm with pc := vm.pc + 1 }) →
      Outcome (WhenReady (Moved vm op)) (fun _ => True) (incPc vm k) := by
    intro op k ho h
    refine incPc_ready (h.mono (fun v hv _ => pl1 (((Plain.refl vm).pc (vm.pc + 1)).trans hv) ho) (fun _ h => h))
  have i5 : ∀ v : VM, v = { vm with pc := vm.pc + 1 + 4 } → (v.pc ≤ 2147483647) → VInv v := by
    intro v hv hb
    subst hv
    exact i.setPc (by have := p.1; unfold I32; constructor <;> omega)
  have arg : ∀ {op : Op} {k : VM → Nat → Res VM},
      (∀ v a, v = { vm with pc := vm.pc + 1 + 4 } → a < 4294967296 → VInv v → Outcome (WhenReady (Moved vm op)) (fun _ => True) (k v a)) →
      Outcome (WhenReady (Moved vm op)) (fun _ => True) (incPc vm (fun v => getArg E v k)) := by
    intro op k h
    refine incPc_ready ?_
    unfold getArg
    simp only
    split
    · intro h; cases h
    · rename_i hb
      obtain ⟨a, h1, h2⟩ := rd32_ok (h := E.endian) (buf := vm.code) (i := (vm.pc + 1).toNat) (by have := p.1; omega)
      rw [h1, Res.ok_bind]
      exact h _ a rfl h2 (i5 _ rfl (by simp only; have := i.size; omega))
  have argP : ∀ {op : Op} {k : VM → Nat → Res VM}, op ∉ [Op.callc, .calls, .ret0, .ret1] →
      (∀ v a, v = { vm with pc := vm.pc + 1 + 4 } → a < 4294967296 → VInv v → Outcome (Plain v) (fun _ => True) (k v a)) →
      Outcome (WhenReady (Moved vm op)) (fun _ => True) (incPc vm (fun v => getArg E v k)) := by
    intro op k ho h
    refine arg (fun v a hv ha j => (h v a hv ha j).mono (fun w hw _ => pl1 (Plain.trans ?_ hw) ho) (fun _ h => h))
    subst hv
    exact (Plain.refl vm).pc _
  cases op with
  | nop => exact incPc_pure (fun _ => @pl1 _ ((Plain.refl _).pc _) .nop (by simp))
  | done => intro h; cases h
  | pushnil => exact inc (by simp) (Plain.push (v := { vm with pc := vm.pc + 1 }) (.refl _) i.heap _)
  | dup => exact inc (by simp) (dup_plain _)
  | pop => exact ifReady_ready (k := fun v => incPc v pure) (fun _ => incPc_pure (fun _ => @pl1 _ ((pop_plain vm).pc _) .pop (by simp)))
  | ret0 => exact back (by simp) (ret0_back i)
  | ret1 => exact back (by simp) (ret1_back i)
  | bin b => exact plain (by simp) (binop_plain i)
  | un u => exact plain (by simp) (unop_plain i)
  | gload => exact inc (by simp) (gload_plain i1)
  | gstore =>
    refine incPc_ready ?_
    unfold gstore
    refine need_rule (n := 2) (fun h => by cases h) (fun hl => ?_)
    refine (Outcome.any _).bind (fun x _ => ?_)
    split
    · refine (Outcome.any _).bind (fun a _ => ?_)
      intro _
      exact .flat ⟨rfl, rfl, rfl, rfl, rfl, fun _ _ h => h, rfl, rfl, fun h => absurd rfl h, fun _ => rfl⟩ (by simp)
    · intro h; cases h
  | pusht => exact incPc_pure (fun _ => @pl1 _ (((Plain.refl _).push i.heap _).pc _) .pusht (by simp))
  | tput => exact plain2 (by simp) (tput_plain i)
  | tget => exact plain2 (by simp) (tget_plain i)
  | callc =>
    refine incPc_ready ?_
    refine (call_moved i1 false rfl (op := .callc) rfl).bind (fun v hv => ?_)
    refine ifReady_ready (fun hr => assertPc_ready ?_)
    intro _
    exact hv hr
  | calls =>
    refine incPc_ready ?_
    refine (call_moved i1 true rfl (op := .calls) rfl).bind (fun v hv => ?_)
    refine ifReady_ready (fun hr => assertPc_ready ?_)
    intro _
    exact hv hr
  | pushf => exact argP (by simp) (fun v a _ _ j => (Plain.refl _).push j.heap _)
  | pushi => exact argP (by simp) (fun v a _ _ j => (Plain.refl _).push j.heap _)
  | pushs => exact argP (by simp) (fun v a _ _ j => pushS_plain j _)
  | pushcn => exact argP (by simp) (fun v a _ ha j => pushC_plain j (intOfU32_range a ha) _)
  | pushcc => exact argP (by simp) (fun v a _ ha j => pushC_plain j (intOfU32_range a ha) _)
  | pushl => exact argP (by simp) (fun v a _ ha j => pushL_plain j (intOfU32_range a ha))
  | lload => exact argP (by simp) (fun v a _ _ j => lload_plain _)
  | lstore =>
    refine arg (fun v a hv ha j => ?_)
    unfold lstore
    refine need_rule (n := 1) (fun h => by cases h) (fun hl => ?_)
    refine (Outcome.any _).bind (fun x _ => ?_)
    subst hv
    split
    · trivial
    · rename_i f fs hf
      have hf : vm.frames = f :: fs := hf
      split
      · intro _
        exact .flat ⟨rfl, rfl, rfl, rfl, rfl, fun _ _ h => h, by simp [hf], by simp [hf], fun _ => rfl, fun h => absurd (by simp) h⟩ (by simp)
      · split
        · intro _
          exact .flat ⟨rfl, rfl, rfl, rfl, rfl, fun _ _ h => h, by simp [hf], by simp [hf], fun _ => rfl, fun h => absurd (by simp) h⟩ (by simp)
        · trivial
  | lremove =>
    refine arg (fun v a hv ha j => ?_)
    unfold lremove
    subst hv
    split
    · trivial
    · rename_i f fs hf
      have hf : vm.frames = f :: fs := hf
      simp only
      split
      · intro h; cases h
      · intro _
        exact .flat ⟨rfl, rfl, rfl, rfl, rfl, fun _ _ h => h, by simp [hf], by simp [hf], fun _ => rfl, fun h => absurd (by simp) h⟩ (by simp)
  | jump =>
    refine arg (fun v a hv ha j => assertPc_ready ?_)
    intro _
    subst hv
    exact pl1 ((Plain.refl vm).pc _) (by simp)
  | jumpz =>
    refine argP (by simp) (fun v a hv ha j => ?_)
    unfold jumpIf
    refine need_rule (n := 1) ((Plain.refl _).err _) (fun hl => ?_)
    refine (Outcome.any _).bind (fun x _ => ?_)
    split
    · unfold assertPc
      split
      · exact ((Plain.refl _).pc _).err _
      · exact ((Plain.refl _).pc _).trans (pop_plain _)
    · exact pop_plain _
  | jumpnz =>
    refine argP (by simp) (fun v a hv ha j => ?_)
    unfold jumpIf
    refine need_rule (n := 1) ((Plain.refl _).err _) (fun hl => ?_)
    refine (Outcome.any _).bind (fun x _ => ?_)
    split
    · unfold assertPc
      split
      · exact ((Plain.refl _).pc _).err _
      · exact ((Plain.refl _).pc _).trans (pop_plain _)
    · exact pop_plain _

/-- The shape of a step that leaves the machine ready, relative to the machine after the collection. -/
theorem step_moved {E : Env} {F : CFuns} {vm vm' : VM} (i : VInv vm) (hr : vm.state = .ready) (h : step E F vm = .ok vm') (hr' : vm'.state = .ready) :
    PcIn vm ∧ ∃ op h' sm', Fetched vm op ∧ Moved { vm with heap := h', strings := sm' } op vm' ∧ Keeps vm { vm with heap := h', strings := sm' } ∧
      (∀ a c, Holds h' a c → Holds vm.heap a c) := by
  obtain ⟨h', sm', e, j, hb, hk, hst⟩ := collect_spec i
  have h0 := h
  unfold step at h
  rw [if_neg (by simp [hr]), e, Res.ok_bind] at h
  have hf : fetch { vm with heap := h', strings := sm' } = fetch vm := rfl
  rw [hf] at h
  obtain ⟨n, hn, h⟩ := Res.bind_eq_ok.mp h
  have hp : PcIn vm := by
    unfold fetch at hn
    split at hn
    · cases hn
    · rename_i hneg
      refine ⟨by omega, ?_⟩
      unfold rd at hn
      split at hn
      · rename_i b hb
        have := (List.getElem?_eq_some_iff.mp hb).1
        omega
      · cases hn
  refine ⟨hp, ?_⟩
  cases ho : opcodes[n]? with
  | none => rw [ho] at h; simp only [Res.pure_eq, Res.ok.injEq] at h; subst h; cases hr'
  | some op =>
    rw [ho] at h
    have hfet : Fetched vm op := by
      unfold fetch at hn
      split at hn
      · cases hn
      · exact ⟨n, hn, ho⟩
    refine ⟨op, h', sm', hfet, ?_, fun a c r hc => hk a c hc r, hb⟩
    have m := exec_moved (E := E) (F := F) (vm := { vm with heap := h', strings := sm' }) j hp op
    rw [show exec E F { vm with heap := h', strings := sm' } op = .ok vm' from h] at m
    exact m hr'

/-- Machines reached by any number of steps. -/
inductive Reached (E : Env) (F : CFuns) (vm : VM) : VM → Prop where
  | here : Reached E F vm vm
  | step {v w : VM} : Reached E F vm v → VM.step E F v = .ok w → Reached E F vm w

theorem Reached.front {E : Env} {F : CFuns} {vm u w : VM} (h : VM.step E F vm = .ok u) (r : Reached E F u w) : Reached E F vm w := by
  induction r with
  | here => exact .step .here h
  | step _ e ih => exact .step ih e

theorem Reached.fine {E : Env} {F : CFuns} (hF : FOk F) {vm w : VM} (i : VInv vm) (p : vm.state = .ready → PcIn vm) (h : Reached E F vm w) :
    VInv w ∧ (w.state = .ready → PcIn w) := by
  induction h with
  | here => exact ⟨i, p⟩
  | step _ e ih =>
    have := step_out (E := E) hF ih.1 ih.2
    rw [e] at this
    exact this

/-! ### Runs inside a called function -/

/-- If the step calls a C function that leaves the machine ready, then the function has returned to its caller: the operands are
replaced by one result, the program counter is at the next instruction, and the rest of the caller is as before. -/
def CReturns (v w : VM) : Prop :=
  ∀ (sw : Bool) (n : Nat) (r : Int) (l : List Nat), Fetched v (if sw then .calls else .callc) → Val v 0 (.int n) → At v (n + 1) (.clo false r l) →
    w.rest = v.rest ∧ w.frames = v.frames ∧ w.pc = v.pc + 1 ∧ (∃ x, w.stack = x :: v.stack.drop (n + 3)) ∧ w.code = v.code ∧
    w.swarmstack = (if sw then v.swarmstack.tail else v.swarmstack) ∧
    ∀ a, ((∃ s ∈ v.rest, a ∈ s) ∨ ∃ f ∈ v.frames, a ∈ f.syms) → ∀ o, Holds v.heap a (.atom o) → Holds w.heap a (.atom o)

/-- Steps in state ready, each with property `P`, until at most `base` stacks lie below the current one. -/
inductive Run (E : Env) (F : CFuns) (P : VM → VM → Prop) (base : Nat) : VM → VM → Prop where
  | last {v w : VM} : step E F v = .ok w → w.state = .ready → P v w → w.rest.length ≤ base → Run E F P base v w
  | more {v u w : VM} : step E F v = .ok u → u.state = .ready → P v u → base < u.rest.length → Run E F P base u w → Run E F P base v w

/-- The objects on the stacks `t` and in the frames `fs` that are no tables or closures are in `h'` as in `h`. -/
def Low (h h' : Heap) (t : List (List Nat)) (fs : List Frame) : Prop :=
  ∀ a, ((∃ s ∈ t, a ∈ s) ∨ ∃ f ∈ fs, a ∈ f.syms) → ∀ o, Holds h a (.atom o) → Holds h' a (.atom o)

/-- The machine is inside a function that will return to `pc`, with the stacks `s :: r` and frames `fs` of its callers. -/
def Inside (sw quiet : Prop) (h : Heap) (p : Nat) (s : List Nat) (r : List (List Nat)) (fs : List Frame) (pc : Int) (code : Bytes) (ss : List Nat) (v : VM) : Prop :=
  ∃ pre fpre f, v.rest = pre ++ (p :: s) :: r ∧ v.frames = fpre ++ f :: fs ∧ fpre.length = pre.length ∧ (f.swarm = true ↔ sw) ∧
    Holds h p (.atom (.int pc)) ∧ Low h v.heap ((p :: s) :: r) fs ∧ v.code = code ∧ (quiet → (∀ g ∈ fpre, g.swarm = false) ∧ v.swarmstack = ss)

/-- The function has returned. -/
def Outside (sw quiet : Prop) [Decidable sw] (h : Heap) (s : List Nat) (r : List (List Nat)) (fs : List Frame) (pc : Int) (code : Bytes) (ss : List Nat) (w : VM) : Prop :=
  w.rest = r ∧ w.frames = fs ∧ (∃ x, w.stack = x :: s) ∧ w.pc = pc ∧ w.code = code ∧ Low h w.heap (s :: r) fs ∧ (quiet → w.swarmstack = if sw then ss.tail else ss)

/-- One step inside a function. -/
theorem inside_step {E : Env} {F : CFuns} {sw quiet : Prop} [Decidable sw] {hp0 : Heap} {p : Nat} {s : List Nat} {r : List (List Nat)} {fs : List Frame} {pc : Int} {code : Bytes}
    {ss : List Nat} {v w : VM} (i : VInv v) (hr : v.state = .ready) (h : step E F v = .ok w) (hr' : w.state = .ready)
    (hP : CReturns v w) (hq : quiet → ¬ Fetched v .calls) (hin : Inside sw quiet hp0 p s r fs pc code ss v) :
    (Inside sw quiet hp0 p s r fs pc code ss w ∧ r.length < w.rest.length) ∨ (Outside sw quiet hp0 s r fs pc code ss w ∧ w.rest.length = r.length) := by
  obtain ⟨pre, fpre, f, h1, h2, h3, h4, h5, hlow, h6, h7⟩ := hin
  obtain ⟨hp, op, h', sm', hf, m, k, hb⟩ := step_moved i hr h hr'
  have hlow' : Low hp0 h' ((p :: s) :: r) fs := by
    intro a ha o ho
    refine k a _ (.root ?_) (hlow a ha o ho)
    rcases ha with ⟨t, ht, hat⟩ | ⟨g, hg, hag⟩
    · exact mem_roots_rest (s := t) (by rw [h1]; exact List.mem_append_right _ ht) hat
    · exact mem_roots_frames (f := g) (by rw [h2]; exact List.mem_append_right _ (List.mem_cons_of_mem _ hg)) hag
  have h5' : Holds h' p (.atom (.int pc)) := hlow' p (.inl ⟨p :: s, by simp, by simp⟩) _ h5
  have len : r.length < (pre ++ (p :: s) :: r).length := by simp; omega
  cases m with
  | flat m _ =>
    left
    have hb2 := m.below
    have hsw := m.swarm
    simp only [h2] at hb2 hsw
    have hfr : ∃ fpre' f', w.frames = fpre' ++ f' :: fs ∧ fpre'.length = fpre.length ∧ f'.swarm = f.swarm ∧ fpre'.map (·.swarm) = fpre.map (·.swarm) := by
      cases fpre with
      | nil =>
        cases hw : w.frames with
        | nil => rw [hw] at hsw; simp at hsw
        | cons g gs =>
          rw [hw] at hsw hb2
          simp only [List.nil_append, List.tail_cons, List.map_cons, List.cons.injEq] at hb2 hsw
          exact ⟨[], g, by simp [hb2], rfl, hsw.1, rfl⟩
      | cons f0 fp =>
        cases hw : w.frames with
        | nil => rw [hw] at hsw; simp at hsw
        | cons g gs =>
          rw [hw] at hsw hb2
          simp only [List.cons_append, List.tail_cons, List.map_cons, List.cons.injEq] at hb2 hsw
          exact ⟨g :: fp, f, by simp [hb2], rfl, rfl, by simp [hsw.1]⟩
    obtain ⟨fpre', f', g1, g2, g3, g4⟩ := hfr
    refine ⟨⟨pre, fpre', f', by rw [m.rest]; exact h1, g1, g2.trans h3, by rw [g3]; exact h4, h5, fun a ha o ho => m.atoms _ _ (hlow' a ha o ho), by rw [m.code]; exact h6, fun q => ⟨fun g hg => ?_, ?_⟩⟩, ?_⟩
    · obtain ⟨g', hg', he⟩ : ∃ g' ∈ fpre, g'.swarm = g.swarm := by
        have : g.swarm ∈ fpre'.map (·.swarm) := List.mem_map_of_mem hg
        rw [g4] at this
        obtain ⟨g', a, b⟩ := List.mem_map.mp this
        exact ⟨g', a, b⟩
      rw [← he]; exact (h7 q).1 g' hg'
    · rw [m.swarmstack]; exact (h7 q).2
    · rw [m.rest]; simp only [h1]; exact len
  | back _ m =>
    obtain ⟨g, p', s', x, g1, g2, g3, g4, g5⟩ := m.ex
    simp only [h1, h2] at g1 g2
    cases fpre with
    | nil =>
      right
      have hpre : pre = [] := List.length_eq_zero_iff.mp h3.symm
      subst hpre
      simp only [List.nil_append, List.cons.injEq] at g1 g2
      obtain ⟨⟨rfl, rfl⟩, hr1⟩ := g2
      obtain ⟨rfl, hf1⟩ := g1
      have hpc : w.pc = pc := by
        have g4 : Holds h' p (.atom (.int w.pc)) := g4
        obtain ⟨m1, e1, e2⟩ := g4
        obtain ⟨m2, e3, e4⟩ := h5'
        rw [e1] at e3; cases e3
        rw [e2] at e4
        cases e4; rfl
      refine ⟨⟨hr1.symm, hf1.symm, ⟨x, g3⟩, hpc, by rw [m.code]; exact h6, (fun a ha o ho => m.atoms _ _ (hlow' a (ha.imp_left (fun ⟨t, x, y⟩ => by
        rcases List.mem_cons.mp x with rfl | x
        · exact ⟨p :: t, by simp, List.mem_cons_of_mem _ y⟩
        · exact ⟨t, List.mem_cons_of_mem _ x, y⟩)) o ho)), fun q => ?_⟩, by rw [← hr1]⟩
      rw [g5]
      simp only [(h7 q).2]
      by_cases hs : sw
      · rw [if_pos hs, if_pos (h4.mpr hs)]
      · rw [if_neg hs, if_neg (fun h => hs (h4.mp h))]
    | cons f0 fp =>
      left
      cases pre with
      | nil => simp at h3
      | cons q0 pr =>
        simp only [List.cons_append, List.cons.injEq] at g1 g2
        refine ⟨⟨pr, fp, f, g2.2.symm, g1.2.symm, by simpa using h3, h4, h5, fun a ha o ho => m.atoms _ _ (hlow' a ha o ho), by rw [m.code]; exact h6, fun q => ⟨fun g hg => (h7 q).1 g (by simp [hg]), ?_⟩⟩, ?_⟩
        · rw [g5]
          have : g.swarm = false := by rw [← g1.1]; exact (h7 q).1 f0 (by simp)
          rw [this]
          exact (h7 q).2
        · rw [← g2.2]; simp; omega
  | @enter sw' ho m =>
    left
    obtain ⟨n, ref, l, p', e1, e2, e3, e4, e5, e6, e7, e8⟩ := m.ex
    simp only [h1, h2] at e5 e7
    refine ⟨⟨_ :: pre, _ :: fpre, f, e7, e5, by simp [h3], h4, h5, fun a ha o ho => m.atoms _ _ (hlow' a ha o ho), by rw [m.code]; exact h6, fun q => ⟨fun g hg => ?_, ?_⟩⟩, ?_⟩
    · rcases List.mem_cons.mp hg with hg | hg
      · rw [hg]
        cases sw' with
        | false => rfl
        | true => exact absurd ((show op = Op.calls from ho) ▸ hf) (hq q)
      · exact (h7 q).1 g hg
    · rw [m.swarmstack]; exact (h7 q).2
    · rw [e7]; simp; omega
  | @cfun n rr l ho hv hat =>
    left
    have hv' : Val v 0 (.int n) := by
      obtain ⟨a, c, x1, x2, x3⟩ := hv
      exact ⟨a, c, x1, hb _ _ x2, x3⟩
    have hat' : At v (n + 1) (.clo false rr l) := by
      obtain ⟨a, x1, x2⟩ := hat
      exact ⟨a, x1, hb _ _ x2⟩
    obtain ⟨sw', hsw'⟩ : ∃ sw' : Bool, op = if sw' then Op.calls else .callc := by
      simp only [List.mem_cons, List.not_mem_nil, or_false] at ho
      rcases ho with rfl | rfl
      · exact ⟨false, rfl⟩
      · exact ⟨true, rfl⟩
    obtain ⟨c1, c2, c3, c4, c5, c6, c7⟩ := hP sw' n rr l (hsw' ▸ hf) hv' hat'
    refine ⟨⟨pre, fpre, f, by rw [c1]; exact h1, by rw [c2]; exact h2, h3, h4, h5, (fun a ha o ho => c7 a (by
        rcases ha with ⟨t, ht, hat⟩ | ⟨g, hg, hag⟩
        · exact .inl ⟨t, by rw [h1]; exact List.mem_append_right _ ht, hat⟩
        · exact .inr ⟨g, by rw [h2]; exact List.mem_append_right _ (List.mem_cons_of_mem _ hg), hag⟩) o (hlow a ha o ho)), by rw [c5]; exact h6,
      fun q => ⟨(h7 q).1, ?_⟩⟩, ?_⟩
    · cases sw' with
      | false => rw [c6]; exact (h7 q).2
      | true => exact absurd ((show op = Op.calls from hsw') ▸ hf) (hq q)
    · rw [c1, h1]; exact len

/-- A run from inside a function until its stack is gone. -/
theorem inside_run {E : Env} {F : CFuns} (hF : FOk F) {sw quiet : Prop} [Decidable sw] {hp0 : Heap} {p : Nat} {s : List Nat} {r : List (List Nat)} {fs : List Frame} {pc : Int} {code : Bytes}
    {ss : List Nat} {P : VM → VM → Prop} (hP : ∀ v w, P v w → CReturns v w ∧ (quiet → ¬ Fetched v .calls)) {v w : VM} (i : VInv v) (hr : v.state = .ready)
    (hin : Inside sw quiet hp0 p s r fs pc code ss v) (h : Run E F P r.length v w) : Outside sw quiet hp0 s r fs pc code ss w ∧ VInv w ∧ w.state = .ready := by
  induction h with
  | @last v w h1 h2 h3 h4 =>
    have hpc := (step_moved i hr h1 h2).1
    have j := step_out (E := E) hF i (fun _ => hpc)
    rw [h1] at j
    rcases inside_step i hr h1 h2 (hP _ _ h3).1 (hP _ _ h3).2 hin with ⟨_, g⟩ | ⟨g, _⟩
    · omega
    · exact ⟨g, j.1, h2⟩
  | @more v u w h1 h2 h3 h4 h5 ih =>
    have hpc := (step_moved i hr h1 h2).1
    have j := step_out (E := E) hF i (fun _ => hpc)
    rw [h1] at j
    rcases inside_step i hr h1 h2 (hP _ _ h3).1 (hP _ _ h3).2 hin with ⟨g, _⟩ | ⟨_, g⟩
    · exact ih j.1 h2 g
    · omega

/-- The loop of `buzzvm_closure_call` is such a run. -/
theorem runAbove_run {E : Env} {F : CFuns} {P : VM → VM → Prop} {base : Nat} : ∀ (n : Nat) {v w : VM},
    (∀ a b, Reached E F v a → step E F a = .ok b → b.state = .ready → P a b) → runAbove E F base n v = .ok w → w.state = .ready →
    Run E F P base v w
  | 0, _, _, _, h, _ => by cases h
  | n + 1, v, w, hP, h, hr => by
    unfold runAbove at h
    obtain ⟨u, h1, h⟩ := Res.bind_eq_ok.mp h
    split at h
    · rename_i hn
      simp only [Res.pure_eq, Res.ok.injEq] at h
      subst h
      exact absurd hr hn
    · rename_i hu
      have hu : u.state = .ready := by simpa using hu
      split at h
      · rename_i hb
        exact .more h1 hu (hP v u .here h1 hu) hb (runAbove_run n (fun a b ha => hP a b (Reached.front h1 ha)) h hr)
      · rename_i hb
        simp only [Res.pure_eq, Res.ok.injEq] at h
        subst h
        exact .last h1 hu (hP v u .here h1 hu) (by omega)

end Buzz.VM
