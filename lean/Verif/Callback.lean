import Verif.Fixed
import Verif.Props.VMCalls

/-
What a script closure called from C leaves alone: the stacks and frames below it, objects other than tables that these hold, and objects that only the
interrupted C function holds.
-/
namespace Buzz.VM

open Buzz.F32 Buzz.Msg Buzz.Heap Buzz.Props

/-- No symbol, stigmergy or listener has an object of `P`, nor has any object outside `P`, and new objects are placed elsewhere. -/
structure Free (P : Nat → Prop) (vm : VM) : Prop where
  frames : ∀ f ∈ vm.frames, ∀ a ∈ f.syms, ¬ P a
  gsyms : ∀ e ∈ vm.gsyms, ¬ P e.2
  other : ∀ a, Held vm.other a → ¬ P a
  cells : ∀ a c, Holds vm.heap a c → ¬ P a → ∀ b ∈ children c, ¬ P b
  low : ∀ a, P a → a < vm.heap.brk

/-- What is kept of a heap: the objects in `P`, and the objects other than tables among `R`; others may be given back. -/
structure KeptFor (P R : Nat → Prop) (h h' : Heap) : Prop where
  own : ∀ a c, P a → Holds h a c → Holds h' a c
  held : ∀ a c, (∀ t, c ≠ .tab t) → R a → Holds h a c → Holds h' a c
  stays : Stays h h'

/-- Every object in `P` is in the list, or in an object in `P` that is. -/
def Rooted (P : Nat → Prop) (h : Heap) (s : List Nat) : Prop := ∀ a, P a → a ∈ s ∨ ∃ b c, b ∈ s ∧ P b ∧ Holds h b c ∧ a ∈ children c

/-- Held by a list or by an object in `P`. -/
def HeldBy (P : Nat → Prop) (h : Heap) (s : List Nat) (a : Nat) : Prop := a ∈ s ∨ ∃ b c, P b ∧ Holds h b c ∧ a ∈ children c

theorem points_of {h : Heap} {b a : Nat} {c : Cell} (hb : Holds h b c) (ha : a ∈ children c) : Points h b a := by
  obtain ⟨m, h1, rfl⟩ := hb
  refine ⟨m, h1, ?_⟩
  cases hm : m.cell with
  | atom o => rw [hm] at ha; simp [children] at ha
  | clo n r l => rw [hm] at ha; exact ha
  | tab t =>
    rw [hm] at ha
    simp only [children, List.mem_flatMap] at ha
    obtain ⟨e, he, hb⟩ := ha
    simp only [List.mem_cons, List.not_mem_nil, or_false] at hb
    exact ⟨e, he, hb.imp Eq.symm Eq.symm⟩

variable {P : Nat → Prop}

/-- One step above the stack that holds the objects of `P`. -/
theorem apart_step {E : Env} {F : CFuns} (hA : FApart F) (hK : FFirm F) {h0 : Heap} (b0 : Below h0) {fl : Nat} {s : List Nat} {v w : VM} (i : VInv v) (hr : v.state = .ready)
    (h : step E F v = .ok w) (ap : Apart fl P v) (hs : ∃ t ∈ v.rest, ∀ a ∈ s, a ∈ t) (hP : Rooted P h0 s) (hk : KeptFor P (HeldBy P h0 s) h0 v.heap) :
    (Apart fl P w ∨ Down fl P w) ∧ KeptFor P (HeldBy P h0 s) h0 w.heap := by
  obtain ⟨u, e, apu, iu, _, k⟩ := collect_sep i ap
  obtain ⟨t, ht, hst⟩ := hs
  have root : ∀ a ∈ s, Reach v.heap (roots v).Mem a := fun a ha => .root (mem_roots_rest ht (hst a ha))
  have rootP : ∀ a, P a → Reach v.heap (roots v).Mem a := fun a ha => by
    rcases hP a ha with h | ⟨b, c, hb, hpb, hc, hab⟩
    · exact root a h
    · exact .step (root b hb) (points_of (hk.own b c hpb hc) hab)
  have ku : KeptFor P (HeldBy P h0 s) h0 u.heap := by
    refine ⟨fun a c hp hc => k a c (hk.own a c hp hc) (rootP a hp), fun a c hn hh hc => k a c (hk.held a c hn hh hc) ?_, hk.stays.trans b0 (collect_stays i e)⟩
    rcases hh with hh | ⟨b, d, hb, hd, ha⟩
    · exact root a hh
    · exact .step (rootP b hb) (points_of (hk.own b d hb hd) ha)
  unfold step at h
  rw [if_neg (by simp [hr]), e, Res.ok_bind] at h
  obtain ⟨n, _, h⟩ := Res.bind_eq_ok.mp h
  split at h
  · rename_i op _
    have x1 := exec_sep (E := E) hA apu op
    have x2 := exec_firm (E := E) hK u op
    rw [h] at x1 x2
    have x2 := (x2 (inv_below iu.heap)).2
    refine ⟨x1.imp And.left And.left, ⟨fun a c hp hc => ?_, fun a c hn hh hc => x2.kept a c hn (ku.held a c hn hh hc), ku.stays.trans b0 x2.stays⟩⟩
    rcases x1 with x1 | x1
    · exact x1.2 a c hp (ku.own a c hp hc)
    · exact x1.2 a c hp (ku.own a c hp hc)
  · cases h
    exact ⟨.inl (apu.setErr _), ku⟩

/-- A run inside a called function. -/
theorem apart_run {E : Env} {F : CFuns} (hF : FOk F) (hA : FApart F) (hK : FFirm F) {h0 hp0 : Heap} (b0 : Below h0) {p : Nat} {s : List Nat} {r : List (List Nat)} {fs : List Frame} {pc : Int}
    {code : Bytes} {ss : List Nat} (hP : Rooted P h0 s) {v w : VM} (i : VInv v) (hr : v.state = .ready) (hin : Inside False False hp0 p s r fs pc code ss v)
    (ap : Apart (r.length + 1) P v) (hk : KeptFor P (HeldBy P h0 s) h0 v.heap) (h : Run E F CReturns r.length v w) :
    Down (r.length + 1) P w ∧ KeptFor P (HeldBy P h0 s) h0 w.heap := by
  have below : ∀ {v : VM}, Inside False False hp0 p s r fs pc code ss v → ∃ t ∈ v.rest, ∀ a ∈ s, a ∈ t := by
    rintro v ⟨pre, _, _, h1, _⟩
    exact ⟨p :: s, by rw [h1]; simp, fun a ha => List.mem_cons_of_mem _ ha⟩
  induction h with
  | @last v w h1 h2 h3 h4 =>
    obtain ⟨x, k⟩ := apart_step hA hK b0 i hr h1 ap (below hin) hP hk
    refine ⟨x.resolve_left fun x => ?_, k⟩
    have := x.up
    omega
  | @more v u w h1 h2 h3 h4 h5 ih =>
    have hpc := (step_moved i hr h1 h2).1
    have j := step_out (E := E) hF i (fun _ => hpc)
    rw [h1] at j
    obtain ⟨x, k⟩ := apart_step hA hK b0 i hr h1 ap (below hin) hP hk
    rcases inside_step (quiet := False) i hr h1 h2 h3 False.elim hin with ⟨g, _⟩ | ⟨_, g⟩
    · refine ih j.1 h2 g (x.resolve_right fun x => ?_) k
      have := x.down
      omega
    · omega

theorem reached_inv {E : Env} {F : CFuns} (hF : FOk F) {v w : VM} (i : VInv v) (h : Reached E F v w) (hw : w.state = .ready) : VInv w := by
  induction h with
  | here => exact i
  | @step a b _ e ih =>
    have har : a.state = .ready := by
      by_contra hne
      unfold VM.step at e
      rw [if_pos hne] at e
      cases e
      exact hne hw
    have j := step_out (E := E) hF (ih har) (fun _ => (step_moved (ih har) har e hw).1)
    rw [e] at j
    exact j.1

theorem down_free {fl : Nat} {vm : VM} (h : Down fl P vm) : Free P vm := ⟨h.frames, h.gsyms, h.other, h.cells, h.low⟩

/-- New objects without references. -/
theorem free_atom {vm : VM} (h : Free P vm) (o : Obj) : Free P { vm with heap := (newobj vm.heap (.atom o)).1 } := by
  refine ⟨h.frames, h.gsyms, h.other, fun a d hd ha b hb => ?_, fun a ha => Nat.lt_succ_of_lt (h.low a ha)⟩
  rcases holds_newobj hd with h1 | ⟨_, rfl⟩
  · exact h.cells a d h1 ha b hb
  · cases hb

/-- A script closure called from C: what is kept. -/
theorem callback {E : Env} {F : CFuns} (hF : FOk F) (hH : FHome F) (hA : FApart F) (hK : FFirm F) {u v : VM} {fuel n : Nat} {ref : Int} {l : List Nat} (i : VInv u)
    (hr : u.state = .ready) (hn : n < 2147483647) (hc : At u n (.clo true ref l)) (h : closureCall E F fuel n u = .ok v) (hv : v.state = .ready)
    (hp : Free P u) (ht : ∀ a ∈ u.stack.take (n + 1), ¬ P a) (hs : Rooted P u.heap (u.stack.drop (n + 1))) :
    Resumed u v n ∧ Free P v ∧ KeptFor P (HeldBy P u.heap (u.stack.drop (n + 1))) u.heap v.heap := by
  have h0 := h
  unfold closureCall at h
  obtain ⟨y, h1, h⟩ := Res.bind_eq_ok.mp h
  obtain ⟨b, h2, h⟩ := Res.bind_eq_ok.mp h
  obtain ⟨iy, hy, hat, hd, hre, hfr, hpc, hco, hst, hss, hnf, htk, hk⟩ := insertSelf_ok i hn hc h1
  have hb := call_native (F := F) (sw := false) hy hn hat
  rw [hb] at h2
  have hcell := iy.cells _ _ hat.choose_spec.2
  simp only [Res.ok.injEq] at h2
  have ib : VInv b := by
    subst h2
    exact ((iy.popN 1).enter n false hcell.2).setPc hcell.1
  have hbr : b.state = .ready := by subst h2; exact hst.trans hr
  have ret : ∀ a d, Reached E F b a → step E F a = .ok d → d.state = .ready → CReturns a d := by
    intro a d ra hd hds
    have har : a.state = .ready := by
      by_contra hne
      unfold step at hd
      rw [if_pos hne] at hd
      cases hd
      exact hne hds
    exact creturns_of_home hH (reached_inv hF ib ra har) har hd hds
  have res := C36_script_closure hF i hr hn hc h0 hv (fun x hx a d => by
    obtain ⟨y', hy', hc'⟩ := hx
    rw [h1] at hy'
    cases hy'
    rw [hb, h2] at hc'
    cases hc'
    exact ret a d)
  have run := runAbove_run (P := CReturns) fuel ret h hv
  have hlt := at_lt hc
  have hl : ∀ a ∈ l, ¬ P a := by
    obtain ⟨a, e1, e2⟩ := hc
    have : ¬ P a := ht a (by
      rw [List.mem_take_iff_getElem]
      obtain ⟨q, e3⟩ := List.getElem?_eq_some_iff.mp e1
      exact ⟨n, by omega, e3⟩)
    exact hp.cells a _ e2 this
  have hrest : b.rest = ((newobj (pushInt y (intOfU32 n)).heap (.atom (.int u.pc))).2 :: u.stack.drop (n + 1)) :: u.rest := by
    subst h2
    rw [← hpc]
    show (_ :: (popN (pushInt y (intOfU32 n)) 1).stack.drop (n + 2)) :: _ = _
    have : (popN (pushInt y (intOfU32 n)) 1).stack.drop (n + 2) = u.stack.drop (n + 1) := by
      simp only [popN, List.drop_drop]
      rw [show 1 + (n + 2) = n + 3 by omega]
      exact hd
    rw [this, ← hre]; rfl
  have hfrm : b.frames = ⟨l ++ (u.stack.take n).reverse, false⟩ :: u.frames := by
    subst h2
    show _ :: _ = _
    rw [← hfr, ← htk]; rfl
  have hheap : Free P b ∧ b.stack = [] := by
    have hy0 : y.heap = (newobj u.heap (.atom .nil)).1 ∧ y.frames = u.frames ∧ y.gsyms = u.gsyms ∧ y.other = u.other := by
      unfold insertSelf at h1
      rw [if_neg (by omega)] at h1
      cases h1
      exact ⟨rfl, rfl, rfl, rfl⟩
    have f1 := free_atom (free_atom (free_atom hp .nil) (.int (intOfU32 n))) (.int u.pc)
    have hbh : b.heap = (newobj (newobj (newobj u.heap (.atom .nil)).1 (.atom (.int (intOfU32 n)))).1 (.atom (.int u.pc))).1 := by
      subst h2
      rw [← hpc, ← hy0.1]
      rfl
    refine ⟨⟨?_, ?_, ?_, by rw [hbh]; exact f1.cells, by rw [hbh]; exact f1.low⟩, by subst h2; rfl⟩
    · rw [hfrm]
      intro f hf a ha
      rcases List.mem_cons.mp hf with rfl | hf
      · rcases List.mem_append.mp ha with ha | ha
        · exact hl a ha
        · exact ht a (by
            rw [List.take_add_one]
            exact List.mem_append_left _ (List.mem_reverse.mp ha))
      · exact hp.frames f hf a ha
    · have : b.gsyms = u.gsyms := by subst h2; exact hy0.2.2.1
      rw [this]; exact hp.gsyms
    · have : b.other = u.other := by subst h2; exact hy0.2.2.2
      rw [this]; exact hp.other
  have ap : Apart (u.rest.length + 1) P b := by
    obtain ⟨f, e⟩ := hheap
    refine ⟨by rw [hrest]; simp, by rw [e]; simp, ?_, f.frames, f.gsyms, f.other, f.cells, f.low⟩
    rw [hrest]
    simp
  have hold : ∀ a c, Holds u.heap a c → Holds b.heap a c := by
    intro a c hac
    subst h2
    exact holds_old iy.heap (hk _ _ hac)
  have stb : Stays u.heap b.heap := by
    have hy0 : y.heap = (newobj u.heap (.atom .nil)).1 := by
      unfold insertSelf at h1
      rw [if_neg (by omega)] at h1
      cases h1
      rfl
    have hbh : b.heap = (newobj (newobj (newobj u.heap (.atom .nil)).1 (.atom (.int (intOfU32 n)))).1 (.atom (.int u.pc))).1 := by
      subst h2
      rw [← hpc, ← hy0]
      rfl
    have f1 : Firm u { u with heap := (newobj u.heap (.atom .nil)).1 } := .new
    have f2 := f1.trans (.new (w := { u with heap := (newobj (newobj u.heap (.atom .nil)).1 (.atom (.int (intOfU32 n)))).1 }))
    have f3 := f2.trans (.new (w := { u with heap := (newobj (newobj (newobj u.heap (.atom .nil)).1 (.atom (.int (intOfU32 n)))).1 (.atom (.int u.pc))).1 }))
    rw [hbh]
    exact (f3 (inv_below i.heap)).2.stays
  have hin : Inside False False b.heap (newobj (pushInt y (intOfU32 n)).heap (.atom (.int u.pc))).2 (u.stack.drop (n + 1)) u.rest u.frames u.pc u.code u.swarmstack b := by
    refine ⟨[], [], ⟨l ++ (u.stack.take n).reverse, false⟩, hrest, hfrm, rfl, by simp, ?_, fun _ _ _ h => h, ?_, False.elim⟩
    · subst h2
      rw [← hpc]
      exact holds_new iy.heap _
    · subst h2; exact hco
  have rr : (u.rest.length) = (pushInt y (intOfU32 n)).rest.length := by rw [hre]
  obtain ⟨x, k⟩ := apart_run (h0 := u.heap) hF hA hK (inv_below i.heap) hs ib hbr hin ap ⟨fun a c _ hc => hold a c hc, fun a c _ _ hc => hold a c hc, stb⟩ (by simpa using run)
  exact ⟨res, down_free x, k⟩

end Buzz.VM
