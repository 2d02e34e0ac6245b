import Verif.Run
import Verif.LibSim
import Verif.InstallBase
import Verif.Listen

/-
A whole program on a machine with its library: loaded by `buzzvm_set_bcode` and run.
-/
namespace Buzz.Link

open Buzz.Msg Buzz.Debug Buzz.Asm Buzz.Props Buzz.Parser Buzz.Comp Buzz.VM Buzz.Sim
open Buzz.Lang (Ast Shape St T2 Syn complete decls functions mentions Legal tops syn_tops)

/-! ### Fewer C functions -/

/-- What `F` does, `G` does. -/
def Under (F G : CFuns) : Prop := ∀ n vm w, F n vm = .ok w → G n vm = .ok w

variable {F G : CFuns} {E : Env}

theorem call_under (h : Under F G) {sw : Bool} {vm w : VM} (e : VM.call F sw vm = .ok w) : VM.call G sw vm = .ok w := by
  unfold VM.call need at e ⊢
  by_cases h1 : (vm.stack.length : Int) - 1 < 0
  · rw [if_pos h1] at e ⊢; exact e
  · rw [if_neg h1] at e ⊢
    cases hp : peek vm 1 with
    | ok o =>
      rw [hp, Res.ok_bind] at e
      rw [Res.ok_bind]
      cases o with
      | int a =>
        simp only at e ⊢
        by_cases h2 : a = 2147483647
        · rw [if_pos h2] at e; cases e
        · rw [if_neg h2] at e ⊢
          by_cases h3 : ((popN vm 1).stack.length : Int) - (a + 1) < 0
          · rw [if_pos h3] at e ⊢; exact e
          · rw [if_neg h3] at e ⊢
            cases hc : peekCell (popN vm 1) (a + 1) with
            | ok c =>
              rw [hc, Res.ok_bind] at e
              rw [Res.ok_bind]
              cases c with
              | clo native ref act =>
                simp only at e ⊢
                by_cases h4 : native = false ∧ ref ≥ ((popN vm 1).nfuns : Int)
                · rw [if_pos h4] at e ⊢; exact e
                · rw [if_neg h4] at e ⊢
                  cases native with
                  | true => exact e
                  | false =>
                    simp only [Bool.false_eq_true, if_false] at e ⊢
                    by_cases h5 : ref < 0
                    · rw [if_pos h5] at e; cases e
                    · rw [if_neg h5] at e ⊢
                      exact h _ _ _ e
              | _ => exact e
            | ub => rw [hc] at e; cases e
            | abort => rw [hc] at e; cases e
            | hang => rw [hc] at e; cases e
      | _ => exact e
    | ub => rw [hp] at e; cases e
    | abort => rw [hp] at e; cases e
    | hang => rw [hp] at e; cases e

theorem callI_under (h : Under F G) {sw : Bool} {vm w : VM} (e : incPc vm (fun vm => do
    let vm ← VM.call F sw vm
    ifReady vm (fun vm => assertPc vm pure)) = .ok w) : incPc vm (fun vm => do
    let vm ← VM.call G sw vm
    ifReady vm (fun vm => assertPc vm pure)) = .ok w := by
  unfold incPc assertPc at e ⊢
  by_cases h1 : (({ vm with pc := vm.pc + 1 } : VM).pc < 0 ∨ ({ vm with pc := vm.pc + 1 } : VM).pc ≥ ({ vm with pc := vm.pc + 1 } : VM).code.length)
  · rw [if_pos h1] at e ⊢; exact e
  · rw [if_neg h1] at e ⊢
    obtain ⟨v, h2, h3⟩ := Res.bind_eq_ok.mp e
    exact Res.bind_eq_ok.mpr ⟨v, call_under h h2, h3⟩

theorem exec_under (h : Under F G) {vm w : VM} {op : Op} (e : exec E F vm op = .ok w) : exec E G vm op = .ok w := by
  cases op with
  | callc => exact callI_under h e
  | calls => exact callI_under h e
  | _ => exact e

theorem step_under (h : Under F G) {vm w : VM} (e : VM.step E F vm = .ok w) : VM.step E G vm = .ok w := by
  unfold VM.step at e ⊢
  by_cases h1 : vm.state ≠ .ready
  · rw [if_pos h1] at e ⊢; exact e
  · rw [if_neg h1] at e ⊢
    obtain ⟨v, h2, e⟩ := Res.bind_eq_ok.mp e
    obtain ⟨n, h3, e⟩ := Res.bind_eq_ok.mp e
    rw [h2, Res.ok_bind, h3, Res.ok_bind]
    cases ho : opcodes[n]? with
    | none => rw [ho] at e; exact e
    | some op =>
      rw [ho] at e
      exact exec_under h e

theorem stepN_under (h : Under F G) : ∀ {k : Nat} {vm w : VM}, stepN E F k vm = .ok w → stepN E G k vm = .ok w
  | 0, _, _, e => e
  | k + 1, vm, w, e => by
    rw [stepN] at e ⊢
    obtain ⟨v, h2, e⟩ := Res.bind_eq_ok.mp e
    rw [step_under h h2, Res.ok_bind]
    exact stepN_under h e

theorem boot_under (h : Under F G) : ∀ {k : Nat} {vm w : VM}, boot E F k vm = .ok w → boot E G k vm = .ok w
  | 0, _, _, e => by cases e
  | k + 1, vm, w, e => by
    rw [boot] at e ⊢
    obtain ⟨n, h2, e⟩ := Res.bind_eq_ok.mp e
    rw [h2, Res.ok_bind]
    by_cases h1 : n = 0
    · rw [if_pos h1] at e ⊢
      exact step_under h e
    · rw [if_neg h1] at e ⊢
      obtain ⟨v, h3, e⟩ := Res.bind_eq_ok.mp e
      rw [step_under h h3, Res.ok_bind]
      by_cases hr : v.state = .ready
      · rw [if_pos hr] at e ⊢
        exact boot_under h e
      · rw [if_neg hr] at e ⊢
        exact e

/-! ### Without C functions the strings do not become more -/

/-- No C function. -/
def noFuns : CFuns := fun _ _ => .hang

theorem noFuns_ok : FOk noFuns := by
  intro n vm vm' _ _ h
  cases h

theorem noFuns_under : Under noFuns G := by
  intro n vm w h
  cases h

theorem call_noFuns {sw : Bool} {vm : VM} : Unt vm (VM.call noFuns sw vm) := by
  unfold VM.call need
  split
  · exact ⟨rfl, rfl⟩
  refine (Outcome.any _).bind fun x _ => ?_
  split
  · simp only
    split
    · trivial
    split
    · exact ⟨rfl, rfl⟩
    refine (Outcome.any _).bind fun c _ => ?_
    split
    · split
      · exact ⟨rfl, rfl⟩
      split
      · exact ⟨rfl, rfl⟩
      split
      · trivial
      · trivial
    · exact ⟨rfl, rfl⟩
  · exact ⟨rfl, rfl⟩

theorem exec_noFuns {vm : VM} {op : Op} : Unt vm (exec E noFuns vm op) := by
  have key : ∀ sw, Unt vm (incPc vm (fun vm => do
      let vm ← VM.call noFuns sw vm
      ifReady vm (fun vm => assertPc vm pure))) := by
    intro sw
    refine unt_inc (Untouched.refl vm) fun v hv => ?_
    refine (unt_from hv call_noFuns).bind fun w hw => ?_
    show Outcome _ _ (if w.state = .ready then (if w.pc < 0 ∨ w.pc ≥ w.code.length then Res.ok (setErr w .pc) else .ok w) else .ok w)
    by_cases h1 : w.state = .ready
    · rw [if_pos h1]
      by_cases h2 : w.pc < 0 ∨ w.pc ≥ w.code.length
      · rw [if_pos h2]; exact hw
      · rw [if_neg h2]; exact hw
    · rw [if_neg h1]; exact hw
  by_cases h : op ∈ [Op.callc, .calls]
  · rcases List.mem_cons.1 h with rfl | h
    · exact key false
    · rw [List.mem_singleton.1 h]
      exact key true
  · exact exec_unt vm op h

theorem step_noFuns {vm w : VM} (i : VInv vm) (e : VM.step E noFuns vm = .ok w) : w.strings.id2str.length ≤ vm.strings.id2str.length := by
  unfold VM.step at e
  by_cases h1 : vm.state ≠ .ready
  · rw [if_pos h1] at e; cases e; exact le_rfl
  · rw [if_neg h1] at e
    obtain ⟨v, h2, e⟩ := Res.bind_eq_ok.mp e
    obtain ⟨n, h3, e⟩ := Res.bind_eq_ok.mp e
    have hc := collect_fewer i h2
    cases ho : opcodes[n]? with
    | none => rw [ho] at e; cases e; exact hc
    | some op =>
      rw [ho] at e
      have : Unt v (exec E noFuns v op) := exec_noFuns
      rw [show exec E noFuns v op = .ok w from e] at this
      rw [show w.strings = v.strings from this.1]
      exact hc

theorem fetch_in {vm : VM} {n : Nat} (h : VM.fetch vm = .ok n) : PcIn vm := by
  unfold VM.fetch at h
  by_cases h1 : vm.pc < 0
  · rw [if_pos h1] at h; cases h
  · rw [if_neg h1] at h
    unfold rd at h
    cases hc : vm.code[vm.pc.toNat]? with
    | none => rw [hc] at h; cases h
    | some x =>
      have := (List.getElem?_eq_some_iff.mp hc).1
      exact ⟨by omega, by omega⟩

theorem boot_noFuns : ∀ {k : Nat} {vm w : VM}, VInv vm → boot E noFuns k vm = .ok w → w.strings.id2str.length ≤ vm.strings.id2str.length
  | 0, _, _, _, e => by cases e
  | k + 1, vm, w, i, e => by
    rw [boot] at e
    obtain ⟨n, h2, e⟩ := Res.bind_eq_ok.mp e
    by_cases h1 : n = 0
    · rw [if_pos h1] at e
      exact step_noFuns i e
    · rw [if_neg h1] at e
      obtain ⟨v, h3, e⟩ := Res.bind_eq_ok.mp e
      by_cases hr : v.state = .ready
      · rw [if_pos hr] at e
        have := step_out (E := E) noFuns_ok i (fun _ => fetch_in h2)
        rw [h3] at this
        exact (boot_noFuns this.1 e).trans (step_noFuns i h3)
      · rw [if_neg hr] at e
        cases e
        exact step_noFuns i h3

/-! ### The library -/

/-- `F` as long as the table of strings has room. -/
def guarded (F : CFuns) : CFuns := fun n vm => if vm.strings.id2str.length ≤ 65533 then F n vm else .hang

theorem guarded_under : Under (guarded F) F := by
  intro n vm w h
  unfold guarded at h
  by_cases hl : vm.strings.id2str.length ≤ 65533
  · rw [if_pos hl] at h; exact h
  · rw [if_neg hl] at h; cases h

theorem guarded_ok {other : CFuns} (ho : FOk other) : FOk (guarded (stdFuns E other)) := by
  intro n vm vm' i hr h
  unfold guarded at h
  by_cases hl : vm.strings.id2str.length ≤ 65533
  · rw [if_pos hl] at h; exact stdFuns_okay ho i hr hl h
  · rw [if_neg hl] at h; cases h

instance (c : Cmd) : Decidable (Sim.Fine c) := by cases c <;> unfold Sim.Fine <;> first | infer_instance | (unfold I32; infer_instance)

theorem library_fine : ∀ c ∈ library, Sim.Fine c ∧ c.nbr = false := by decide +kernel

theorem library_length : library.length = 286 := by decide +kernel

variable {T : Tools} {pre : List Bytes} {b : Ast} {o : Out} {cs : List Chunk} {other : CFuns}

/-- The surroundings of a program with the library. -/
abbrev libCtx (T : Tools) (pre : List Bytes) (b : Ast) (o : Out) (cs : List Chunk) (E : Env) (other : CFuns) : Ctx :=
  ctxOf T pre b o cs E (guarded (stdFuns E other)) ⟨Lang.stdLib, 65, true⟩

theorem libCtx_ok (hE : Obj.StrcmpLaw E.sc) : LibOk (libCtx T pre b o cs E other) :=
  std_ok (E := E) (other := other) (fun n vm h => by show guarded _ n vm = _; unfold guarded; rw [if_pos h]) rfl rfl rfl hE

theorem install_eq {robot : Nat} {s0 s1 : St} {r : Lang.Regs} (h : Lang.regs (.int (robot : Int)) library ⟨none, [], 0, none⟩ s0 = .ok r s1) : Lang.install robot s0 = .ok () s1 := bind_eq h

/-- **Loading a program leaves the machine with the program's functions and the library.** -/
theorem equips (h : Result T pre b o cs) (hP : Program T pre b) (hroom : (stringsOf pre b).length ≤ 65000) (he : E.endian = T.endian) (hs : (bytecode T pre b o cs).length ≤ 2147483647)
    (ho : FOk other) (hE : Obj.StrcmpLaw E.sc) {robot : Nat} (hrob : robot < 65536) {s0 : St} (hi : Lang.initial b = .ok () s0) :
    ∃ s1 vm1, Lang.install robot s0 = .ok () s1 ∧ (∃ N, ∀ m, N ≤ m → setBcode E (stdFuns E other) m robot (bytecode T pre b o cs) VM.new = .ok vm1) ∧ s1.scope = .top ∧
      Pt (libCtx T pre b o cs E other) (loaded T pre b o cs) [] ((libCtx T pre b o cs E other).pos 0) [] s1 vm1 := by
  have hG : FOk (guarded (stdFuns E other)) := guarded_ok ho
  have g : Good (libCtx T pre b o cs E other) := goodOf hP hs hG hE (libCtx_ok hE)
  obtain ⟨vm0, n, h1, h2, h3⟩ := bootsOf true h hP he hs hG hE hi
  have hcount : vm0.strings.id2str.length ≤ 65000 := by
    obtain ⟨vm0', n', h1', _, _⟩ := bootsOf true h hP he hs noFuns_ok hE hi
    have e1 := h1' (max n n') (le_max_right _ _)
    have e2 := h1 (max n n') (le_max_left _ _)
    rw [boot_under noFuns_under e1] at e2
    cases e2
    refine (boot_noFuns (loaded_inv hP hs) e1).trans (le_trans (le_of_eq ?_) hroom)
    show ((stringsOf pre b).zipIdx.map _).length = _
    simp
  obtain ⟨r, s1, k1, k2, k3, k4⟩ := installed robot s0
  have hin : In (libCtx T pre b o cs E other) (loaded T pre b o cs) [] ((libCtx T pre b o cs E other).pos 0) ⟨none, [], 0, none⟩ s0 vm0 0 := by
    obtain ⟨ρ, as, h3⟩ := h3
    exact ⟨ρ, as, h3, h2, ⟨by rintro v ⟨⟩, by rintro x ⟨⟩⟩⟩
  obtain ⟨vm1, t, k5, ρ, as, k6, k7, _⟩ := In.cmds g hrob library hin library_fine (by rw [library_length]; omega) (by rw [library_length]; decide) k1
  obtain ⟨rt, rws, rnf, rl⟩ := r
  cases k2
  cases k3
  refine ⟨s1, vm1, install_eq k1, ⟨n, fun m hm => ?_⟩, k7, ρ, as, ?_⟩
  · unfold setBcode
    rw [load_ok hP he, Res.ok_bind, boot_under guarded_under (h1 m hm), Res.ok_bind]
    obtain ⟨_, _, h3⟩ := h3
    rw [if_pos h3.core.ready]
    unfold VM.install
    rw [show VM.cmds E robot library (vm0, 0) = .ok (vm1, t) from k5]
    rfl
  · have hc := k6.core.lib (lib := Lang.stdLib) (n := 65) le_rfl
    have hn : vm1.nfuns = 65 := by
      have := k6.core.base
      exact (Prod.mk.inj this).2
    have hv : ({ vm1 with nfuns := 65 } : VM) = vm1 := by
      rw [← hn]
    rw [hv] at hc
    exact {
      core := hc
      sc := by have := k6.sc; rw [k7] at this ⊢; exact this
      pc := k6.pc
      stack := k6.stack
      reps := k6.reps
      rest := k6.rest
      tail := k6.tail
      depth := k6.depth
      evo := k6.evo
      pre := k6.pre 
      floor := k6.floor }

end Buzz.Link
