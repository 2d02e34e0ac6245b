import Verif.Callback
import Verif.ApartLib
import Verif.Equip

/-
The modelled C functions return to their callers and change no objects.
-/
namespace Buzz.VM

open Buzz.F32 Buzz.Msg Buzz.Heap Buzz.Props Buzz.HeapWire Buzz.MathLib

/-- Still in the same function; objects have been created at most. -/
structure Here (vm v : VM) : Prop where
  frames : v.frames = vm.frames
  rest : v.rest = vm.rest
  code : v.code = vm.code
  swarm : v.swarmstack = vm.swarmstack
  grow : ∀ a c, Holds vm.heap a c → Holds v.heap a c
  firm : Firm vm v

theorem Here.refl (vm : VM) : Here vm vm := ⟨rfl, rfl, rfl, rfl, fun _ _ h => h, .same⟩

theorem Here.setErr {vm v : VM} (h : Here vm v) (e : Err) : Here vm (setErr v e) := ⟨h.frames, h.rest, h.code, h.swarm, h.grow, h.firm.trans .same⟩

theorem Here.pushAddr {vm v : VM} (h : Here vm v) (a : Nat) : Here vm (pushAddr v a) := ⟨h.frames, h.rest, h.code, h.swarm, h.grow, h.firm.trans .same⟩

theorem Here.popN {vm v : VM} (h : Here vm v) (n : Nat) : Here vm (popN v n) := ⟨h.frames, h.rest, h.code, h.swarm, h.grow, h.firm.trans .same⟩

theorem Here.push {vm v : VM} (h : Here vm v) (c : Cell) : Here vm (push v c) :=
  ⟨h.frames, h.rest, h.code, h.swarm, fun a d hd => newobj_holds (h.grow a d hd), h.firm.trans .new⟩

theorem Here.strings {vm v : VM} (h : Here vm v) (sm : Strman.SM Bytes) : Here vm { v with strings := sm } :=
  ⟨h.frames, h.rest, h.code, h.swarm, h.grow, h.firm.trans .same⟩

theorem Here.pushS {vm v : VM} (h : Here vm v) (a : Nat) : Here vm (VM.pushS v a) := by
  unfold VM.pushS
  split
  · exact h.push _
  · exact h.setErr _

abbrev HereR (vm : VM) (r : Res VM) : Prop := Outcome (Here vm) (fun _ => True) r

/-- The function has returned if the machine is ready, and objects other than tables are unchanged. -/
abbrev Ends1 (vm : VM) (r : Res VM) : Prop := Outcome (fun w => Firm vm w ∧ (VInv vm → w.state = .ready → Home vm w)) (fun _ => True) r

theorem ends_err {vm v : VM} (h : Here vm v) (e : Err) : Ends1 vm (pure (setErr v e)) := ⟨(h.setErr e).firm, fun _ hr => by cases hr⟩

theorem ends_any {α : Type} {vm : VM} {r : Res α} {k : α → Res VM} (hk : ∀ x, Ends1 vm (k x)) : Ends1 vm (r >>= k) := (Outcome.any r).bind (fun x _ => hk x)

theorem here_any {α : Type} {vm : VM} {r : Res α} {k : α → Res VM} (hk : ∀ x, HereR vm (k x)) : HereR vm (r >>= k) := (Outcome.any r).bind (fun x _ => hk x)

theorem ends_then {vm : VM} {r : Res VM} {k : VM → Res VM} (h : HereR vm r) (hk : ∀ w, Here vm w → Ends1 vm (k w)) : Ends1 vm (r >>= k) := h.bind hk

theorem here_then {vm : VM} {r : Res VM} {k : VM → Res VM} (h : HereR vm r) (hk : ∀ w, Here vm w → HereR vm (k w)) : HereR vm (r >>= k) := h.bind hk

theorem here_lload {vm v : VM} (h : Here vm v) (n : Nat) : HereR vm (lload v n) := by
  unfold lload
  split
  · trivial
  · split
    · exact h.setErr _
    · split
      · exact h.pushAddr _
      · trivial

theorem here_pushStr {vm v : VM} {s : Bytes} (h : Here vm v) : HereR vm (pushStr v s) := by
  unfold pushStr
  exact here_any fun r => (h.strings r.1).pushS r.2

theorem here_pushName {vm v : VM} {x : String} (h : Here vm v) : HereR vm (pushName x v) := by
  unfold pushName
  exact here_any fun r => (h.strings r.1).pushS r.2

theorem here_tget {E : Env} {vm v : VM} (h : Here vm v) : HereR vm (tget E v) := by
  unfold tget need
  split
  · exact h.setErr _
  · refine here_any fun c => ?_
    split
    · refine here_any fun k => ?_
      split
      · refine here_any fun r => ?_
        split
        · exact (h.popN 2).pushAddr _
        · exact (h.popN 2).push _
      · trivial
    · exact h.setErr _

theorem retTo_ready {v w : VM} {a : Nat} (h : retTo v (fun x => pushAddr x a) = .ok w) (hw : w.state = .ready) :
    ∃ p s n, v.stack = p :: s ∧ Holds v.heap p (.atom (.int n)) ∧ w = { v with stack := a :: s, pc := n } := by
  unfold retTo need at h
  by_cases hn : (v.stack.length : Int) - (1 : Int) < 0
  · rw [if_pos hn] at h; cases h; cases hw
  · rw [if_neg hn] at h
    obtain ⟨x, h1, h⟩ := Res.bind_eq_ok.mp h
    unfold peek at h1
    obtain ⟨p, h2, h1⟩ := Res.bind_eq_ok.mp h1
    obtain ⟨m, h3, h1⟩ := Res.bind_eq_ok.mp h1
    simp only [Res.pure_eq, Res.ok.injEq] at h1
    cases hs : v.stack with
    | nil => rw [hs] at hn; exact absurd (by decide) hn
    | cons q s =>
      have : p = q := by
        unfold peekAddr at h2
        rw [hs] at h2
        simp at h2
        exact h2.symm
      subst this
      have hd := deref_holds h3
      cases x with
      | int n =>
        simp only [Res.pure_eq, Res.ok.injEq] at h
        subst h
        refine ⟨p, s, n, rfl, ?_, by unfold VM.popN VM.pushAddr; rw [hs]; rfl⟩
        cases hc : m.cell with
        | atom o => rw [hc] at h1 hd; cases h1; exact hd
        | tab t => rw [hc] at h1; cases h1
        | clo x y z => rw [hc] at h1; cases h1
      | _ => simp only [Res.pure_eq, Res.ok.injEq] at h; subst h; cases hw

theorem ret1_ready {v w : VM} (h : ret1 v = .ok w) (hw : w.state = .ready) :
    ∃ f a p s n, v.frames = f :: w.frames ∧ v.rest = (p :: s) :: w.rest ∧ w.stack = a :: s ∧ Holds v.heap p (.atom (.int n)) ∧ w.pc = n ∧ w.code = v.code ∧ w.heap = v.heap ∧
      w.swarmstack = if f.swarm then v.swarmstack.tail else v.swarmstack := by
  unfold ret1 at h
  cases hf : v.frames with
  | nil => rw [hf] at h; cases h
  | cons f fs =>
    rw [hf] at h
    simp only [need] at h
    by_cases hn : (v.stack.length : Int) - (1 : Int) < 0
    · rw [if_pos hn] at h; cases h; cases hw
    · rw [if_neg hn] at h
      obtain ⟨a, _, h⟩ := Res.bind_eq_ok.mp h
      cases hs : v.rest with
      | nil => rw [hs] at h; cases h
      | cons s r =>
        rw [hs] at h
        obtain ⟨p, s', n, h1, h2, h3⟩ := retTo_ready h hw
        subst h3
        subst h1
        exact ⟨f, a, p, s', n, rfl, rfl, rfl, h2, rfl, rfl, rfl, rfl⟩

theorem ends_ret1 {vm v : VM} (h : Here vm v) : Ends1 vm (ret1 v) := by
  have hf := ret1_firm v
  cases hr : ret1 v with
  | ok w =>
    rw [hr] at hf
    refine ⟨h.firm.trans hf, fun i hw => ?_⟩
    obtain ⟨f, a, p, s, n, h1, h2, h3, h4, h5, h6, h7, h8⟩ := ret1_ready hr hw
    rw [h.frames] at h1
    rw [h.rest] at h2
    rw [h.swarm] at h8
    obtain ⟨c, hc⟩ := i.rest (p :: s) (by rw [h2]; simp) p (by simp)
    refine ⟨⟨f, p, s, a, h1, h2, h3, ?_, h8⟩, h6.trans h.code, fun x o hx => ?_⟩
    · rw [h5]
      have := holds_inj (h.grow p c hc) h4
      rw [this] at hc
      exact hc
    · rw [h7]; exact h.grow x _ hx
  | ub => trivial
  | abort => trivial
  | hang => trivial

theorem ends_give {vm v : VM} {o : Obj} (h : Here vm v) : Ends1 vm (ret1 (push v (.atom o))) := ends_ret1 (h.push _)

theorem ends_load {vm v : VM} {n : Nat} {k : VM → Res VM} (h : Here vm v) (hk : ∀ w, Here vm w → Ends1 vm (k w)) : Ends1 vm (lload v n >>= k) :=
  ends_then (here_lload h n) hk

/-- A function with one argument. -/
theorem ends_arg1 {vm : VM} {j : Int} {n : Nat} {k : VM → Res VM} (hk : ∀ w, Here vm w → Ends1 vm (k w)) :
    Ends1 vm (lnum vm >>= fun i => if i ≠ j then pure (setErr vm .lnum) else lload vm n >>= k) := by
  refine ends_any fun i => ?_
  split
  · exact ends_err (.refl _) _
  · exact ends_load (.refl _) hk

theorem poses_ends {E : Env} {vm : VM} : HereR vm (nbrPoses E vm) := by
  unfold nbrPoses
  exact here_then (here_lload (.refl _) 0) fun v s => here_then (here_pushName s) fun v s => here_tget s

theorem nbrGet_ends {E : Env} {vm : VM} : Ends1 vm (nbrGet E vm) := by
  unfold nbrGet
  refine ends_any fun i => ?_
  split
  · exact ends_err (.refl _) _
  · refine ends_then (poses_ends) fun v s => ends_any fun o => ?_
    split
    · exact ends_give s
    · exact ends_load s fun v s => ends_then (here_tget s) fun v s => ends_ret1 s

theorem nbrCount_ends {E : Env} {vm : VM} : Ends1 vm (nbrCount E vm) := by
  unfold nbrCount
  refine ends_any fun i => ?_
  split
  · exact ends_err (.refl _) _
  · refine ends_then (poses_ends) fun v s => ends_any fun o => ?_
    split
    · exact ends_give s
    · exact ends_give s
    · trivial

theorem objType_ends {vm : VM} : Ends1 vm (objType vm) :=
  ends_arg1 fun _ s => ends_any fun _ => ends_then (here_pushStr (s.popN 1)) fun _ s => ends_ret1 s

theorem objInt_ends {vm : VM} : Ends1 vm (objInt vm) := by
  refine ends_arg1 fun _ s => ends_any fun _ => ?_
  split
  · exact ends_any fun _ => ends_give (s.popN 1)
  · trivial
  · exact ends_err s _

theorem objFloat_ends {vm : VM} : Ends1 vm (objFloat vm) := by
  refine ends_arg1 fun _ s => ends_any fun _ => ?_
  split
  · exact ends_give (s.popN 1)
  · exact ends_err s _

theorem objSize_ends {vm : VM} : Ends1 vm (objSize vm) := by
  refine ends_arg1 fun _ s => ends_any fun _ => ?_
  split
  · exact ends_give (s.popN 1)
  · exact ends_err s _

theorem objIs_ends {vm : VM} (x : String) : Ends1 vm (objIs x vm) :=
  ends_arg1 fun _ s => ends_any fun _ => ends_give s

theorem mathAbs_ends {vm : VM} : Ends1 vm (mathAbs vm) := by
  refine ends_arg1 fun _ s => ends_any fun _ => ?_
  split
  · exact ends_give s
  · exact ends_any fun _ => ends_give s
  · exact ends_err s _

theorem mathRound_ends {f : ℚ → Int} {vm : VM} : Ends1 vm (mathRound f vm) := by
  refine ends_arg1 fun _ s => ends_any fun _ => ?_
  split
  · exact ends_any fun _ => ends_give s
  · trivial
  · exact ends_give s
  · exact ends_err s _

theorem mathPick_ends {E : Env} {g : Int → Bool} {vm : VM} : Ends1 vm (mathPick E g vm) := by
  refine ends_arg1 fun _ s => ends_any fun a => ends_any fun _ => ends_then (here_lload s 2) fun w s' => ends_any fun b => ends_any fun _ => ends_any fun c => ?_
  exact ends_ret1 (s'.pushAddr _)

theorem strLength_ends {vm : VM} : Ends1 vm (strLength vm) := by
  refine ends_arg1 fun _ s => ends_any fun _ => ?_
  split
  · exact ends_give s
  · exact ends_err s _

theorem subTail_ends {vm v : VM} {b : Bytes} {n m : Int} (s : Here vm v) : Ends1 vm (subTail v b n m) := by
  unfold subTail
  split
  · trivial
  · exact ends_then (here_pushStr s) fun _ s => ends_ret1 s

theorem strSub_ends {vm : VM} : Ends1 vm (VM.strSub vm) := by
  unfold VM.strSub
  refine ends_any fun k => ?_
  split
  · exact ends_err (.refl _) _
  · refine ends_load (.refl _) fun v s => ends_any fun o => ?_
    split
    · refine ends_load s fun v s => ends_any fun o => ?_
      split
      · split
        · exact ends_give s
        · split
          · refine ends_load s fun v s => ends_any fun o => ?_
            split
            · split
              · exact ends_give s
              · exact subTail_ends s
            · exact ends_err s _
          · exact subTail_ends s
      · exact ends_err s _
    · exact ends_err s _

theorem concatLoad_ends {vm : VM} {k : VM → Res VM} (hk : ∀ w, Here vm w → Ends1 vm (k w)) : ∀ (n i : Nat) (v : VM), Here vm v → Ends1 vm (concatLoad n i v k)
  | 0, _, v, s => hk v s
  | n + 1, i, v, s => by
    unfold concatLoad
    refine ends_load s fun v s => ends_any fun o => ?_
    split
    · exact concatLoad_ends hk n (i + 1) v s
    · exact ends_err s _

theorem strConcat_ends {vm : VM} : Ends1 vm (VM.strConcat vm) := by
  unfold VM.strConcat
  refine ends_any fun k => ?_
  split
  · exact ends_err (.refl _) _
  · refine concatLoad_ends (fun v s => ends_any fun b => ?_) _ _ _ (.refl _)
    split
    · trivial
    · exact ends_then (here_pushStr s) fun _ s => ends_ret1 s

theorem strToString_ends {vm : VM} : Ends1 vm (strToString vm) := by
  refine ends_arg1 fun _ s => ends_any fun _ => ?_
  split
  · exact ends_then (here_pushStr s) fun _ s => ends_ret1 s
  · exact ends_then (here_pushStr s) fun _ s => ends_ret1 s
  · trivial

theorem strToInt_ends {vm : VM} : Ends1 vm (strToInt vm) := by
  refine ends_arg1 fun _ s => ends_any fun _ => ?_
  split
  · split
    · exact ends_give s
    · split
      · exact ends_give s
      · exact ends_give s
  · exact ends_err s _


theorem stdFuns_ends {E : Env} {other : CFuns} {n : Nat} {vm : VM} (ho : ∀ n vm, Ends1 vm (other n vm)) : Ends1 vm (Sim.stdFuns E other n vm) := by
  unfold Sim.stdFuns
  split
  · exact nbrGet_ends
  · exact nbrCount_ends
  · exact objType_ends
  · exact objInt_ends
  · exact objFloat_ends
  · exact objSize_ends
  iterate 7 exact objIs_ends _
  · exact mathAbs_ends
  iterate 3 exact mathRound_ends
  · exact mathPick_ends
  · exact mathPick_ends
  · exact strLength_ends
  · exact strSub_ends
  · exact strConcat_ends
  · exact strToString_ends
  · exact strToInt_ends
  · exact ho _ _

/-- C functions that return and change no objects. -/
def FEnds (F : CFuns) : Prop := ∀ n vm, Ends1 vm (F n vm)

theorem FEnds.home {F : CFuns} (h : FEnds F) : FHome F := fun n v w i e hw => by
  have := h n v
  rw [e] at this
  exact this.2 i hw

theorem FEnds.firm {F : CFuns} (h : FEnds F) : FFirm F := fun n v => (h n v).mono (fun _ h => h.1) (fun _ h => h)

theorem guarded_ends {F : CFuns} (h : FEnds F) : FEnds (Buzz.Link.guarded F) := fun n vm => by
  unfold Buzz.Link.guarded
  split
  · exact h n vm
  · trivial

theorem guarded_sep {F : CFuns} (h : FApart F) : FApart (Buzz.Link.guarded F) := fun n fl P vm a => by
  unfold Buzz.Link.guarded
  split
  · exact h n fl P vm a
  · trivial

theorem stdFuns_sep {E : Env} {other : CFuns} (ho : FApart other) : FApart (Sim.stdFuns E other) := by
  intro n fl P vm h
  unfold Sim.stdFuns
  split
  · exact nbrGet_sep h
  · exact nbrCount_sep h
  · exact objType_sep h
  · exact objInt_sep h
  · exact objFloat_sep h
  · exact objSize_sep h
  iterate 7 exact objIs_sep h _
  · exact mathAbs_sep h
  iterate 3 exact mathRound_sep h
  · exact mathPick_sep h
  · exact mathPick_sep h
  · exact strLength_sep h
  · exact strSub_sep h
  · exact strConcat_sep h
  · exact strToString_sep h
  · exact strToInt_sep h
  · exact ho _ fl P vm h

/-- Functions that do nothing but fail. -/
theorem noFuns_sep : FApart Buzz.Link.noFuns := fun _ _ _ _ _ => by trivial

theorem noFuns_ends : FEnds Buzz.Link.noFuns := fun _ _ => by trivial

/-- The library fulfils all that is asked of functions called by scripts, as long as the table of strings has room. -/
theorem std_all {E : Env} : FOk (Buzz.Link.guarded (Sim.stdFuns E Buzz.Link.noFuns)) ∧ FHome (Buzz.Link.guarded (Sim.stdFuns E Buzz.Link.noFuns)) ∧
    FApart (Buzz.Link.guarded (Sim.stdFuns E Buzz.Link.noFuns)) ∧ FFirm (Buzz.Link.guarded (Sim.stdFuns E Buzz.Link.noFuns)) :=
  ⟨Buzz.Link.guarded_ok Buzz.Link.noFuns_ok, (guarded_ends fun _ _ => stdFuns_ends noFuns_ends).home, guarded_sep (stdFuns_sep noFuns_sep),
    (guarded_ends fun _ _ => stdFuns_ends noFuns_ends).firm⟩

end Buzz.VM
