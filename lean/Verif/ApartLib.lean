import Verif.Broadcast
import Verif.LibSim

/-
The modelled C functions leave what is apart from the script apart.
-/
namespace Buzz.VM

open Buzz.F32 Buzz.Msg Buzz.Heap Buzz.Props Buzz.HeapWire Buzz.MathLib

variable {fl : Nat} {P : Nat → Prop}

theorem strings_sep {vm v : VM} (h : Sep fl P vm v) (sm : Strman.SM Bytes) : Sep fl P vm { v with strings := sm } :=
  ⟨⟨h.1.up, h.1.stack, h.1.rest, h.1.frames, h.1.gsyms, h.1.other, h.1.cells, h.1.low⟩, h.2⟩

theorem sep_pushStr {vm v : VM} {s : Bytes} (h : Sep fl P vm v) : SepR fl P vm (pushStr v s) := by
  unfold pushStr
  exact sep_any fun r => (strings_sep h r.1).trans (pushS_sep (strings_sep h r.1).1 r.2)

theorem sep_pushName {vm v : VM} {x : String} (h : Sep fl P vm v) : SepR fl P vm (pushName x v) := by
  unfold pushName
  exact sep_any fun r => (strings_sep h r.1).trans (pushS_sep (strings_sep h r.1).1 r.2)

theorem sep_ret1 {vm v : VM} (h : Sep fl P vm v) : SepT fl P vm (ret1 v) := tl_from h ret1_sep

theorem sep_give {vm v : VM} {o : Obj} (h : Sep fl P vm v) : SepT fl P vm (ret1 (push v (.atom o))) := sep_ret1 (h.push (fun _ hb => by cases hb))

theorem sep_load {vm v : VM} {n : Nat} {k : VM → Res VM} (h : Sep fl P vm v) (hk : ∀ w, Sep fl P vm w → SepT fl P vm (k w)) : SepT fl P vm (lload v n >>= k) :=
  tl_then (sep_from h fun h => lload_sep h n) hk

/-- A function with one argument. -/
theorem sep_arg1 {vm : VM} {j : Int} {n : Nat} {k : VM → Res VM} (h : Apart fl P vm) (hk : ∀ w, Sep fl P vm w → SepT fl P vm (k w)) :
    SepT fl P vm (lnum vm >>= fun i => if i ≠ j then pure (setErr vm .lnum) else lload vm n >>= k) := by
  refine tl_any fun i => ?_
  split
  · exact Or.inl ((Sep.refl h).setErr _)
  · exact sep_load (Sep.refl h) hk

theorem poses_sep {E : Env} {vm : VM} (h : Apart fl P vm) : SepR fl P vm (nbrPoses E vm) := by
  unfold nbrPoses
  exact sep_then (lload_sep h 0) fun v s => sep_then (sep_pushName s) fun v s => sep_from s tget_sep

theorem nbrGet_sep {E : Env} {vm : VM} (h : Apart fl P vm) : SepT fl P vm (nbrGet E vm) := by
  unfold nbrGet
  refine tl_any fun i => ?_
  split
  · exact Or.inl ((Sep.refl h).setErr _)
  · refine tl_then (poses_sep h) fun v s => tl_any fun o => ?_
    split
    · exact sep_give s
    · exact sep_load s fun v s => tl_then (sep_from s tget_sep) fun v s => sep_ret1 s

theorem nbrCount_sep {E : Env} {vm : VM} (h : Apart fl P vm) : SepT fl P vm (nbrCount E vm) := by
  unfold nbrCount
  refine tl_any fun i => ?_
  split
  · exact Or.inl ((Sep.refl h).setErr _)
  · refine tl_then (poses_sep h) fun v s => tl_any fun o => ?_
    split
    · exact sep_give s
    · exact sep_give s
    · trivial

theorem objType_sep {vm : VM} (h : Apart fl P vm) : SepT fl P vm (objType vm) :=
  sep_arg1 h fun _ s => tl_any fun _ => tl_then (sep_pushStr (s.popN 1)) fun _ s => sep_ret1 s

theorem objInt_sep {vm : VM} (h : Apart fl P vm) : SepT fl P vm (objInt vm) := by
  refine sep_arg1 h fun _ s => tl_any fun _ => ?_
  split
  · exact tl_any fun _ => sep_give (s.popN 1)
  · trivial
  · exact Or.inl (s.setErr _)

theorem objFloat_sep {vm : VM} (h : Apart fl P vm) : SepT fl P vm (objFloat vm) := by
  refine sep_arg1 h fun _ s => tl_any fun _ => ?_
  split
  · exact sep_give (s.popN 1)
  · exact Or.inl (s.setErr _)

theorem objSize_sep {vm : VM} (h : Apart fl P vm) : SepT fl P vm (objSize vm) := by
  refine sep_arg1 h fun _ s => tl_any fun _ => ?_
  split
  · exact sep_give (s.popN 1)
  · exact Or.inl (s.setErr _)

theorem objIs_sep {vm : VM} (h : Apart fl P vm) (x : String) : SepT fl P vm (objIs x vm) :=
  sep_arg1 h fun _ s => tl_any fun _ => sep_give s

theorem mathAbs_sep {vm : VM} (h : Apart fl P vm) : SepT fl P vm (mathAbs vm) := by
  refine sep_arg1 h fun _ s => tl_any fun _ => ?_
  split
  · exact sep_give s
  · exact tl_any fun _ => sep_give s
  · exact Or.inl (s.setErr _)

theorem mathRound_sep {f : ℚ → Int} {vm : VM} (h : Apart fl P vm) : SepT fl P vm (mathRound f vm) := by
  refine sep_arg1 h fun _ s => tl_any fun _ => ?_
  split
  · exact tl_any fun _ => sep_give s
  · trivial
  · exact sep_give s
  · exact Or.inl (s.setErr _)

theorem mathPick_sep {E : Env} {g : Int → Bool} {vm : VM} (h : Apart fl P vm) : SepT fl P vm (mathPick E g vm) := by
  refine sep_arg1 h fun _ s => tl_eq fun a ha => tl_any fun _ => tl_then (sep_from s fun h => lload_sep h 2) fun w s' => tl_eq fun b hb => tl_any fun _ => tl_any fun c => ?_
  refine sep_ret1 (s'.pushAddr ?_)
  split
  · exact s.1.stack a (peekAddr_mem ha)
  · exact s'.1.stack b (peekAddr_mem hb)

theorem strLength_sep {vm : VM} (h : Apart fl P vm) : SepT fl P vm (strLength vm) := by
  refine sep_arg1 h fun _ s => tl_any fun _ => ?_
  split
  · exact sep_give s
  · exact Or.inl (s.setErr _)

theorem subTail_sep {vm v : VM} {b : Bytes} {n m : Int} (s : Sep fl P vm v) : SepT fl P vm (subTail v b n m) := by
  unfold subTail
  split
  · trivial
  · exact tl_then (sep_pushStr s) fun _ s => sep_ret1 s

theorem strSub_sep {vm : VM} (h : Apart fl P vm) : SepT fl P vm (VM.strSub vm) := by
  unfold VM.strSub
  refine tl_any fun k => ?_
  split
  · exact Or.inl ((Sep.refl h).setErr _)
  · refine sep_load (Sep.refl h) fun v s => tl_any fun o => ?_
    split
    · refine sep_load s fun v s => tl_any fun o => ?_
      split
      · split
        · exact sep_give s
        · split
          · refine sep_load s fun v s => tl_any fun o => ?_
            split
            · split
              · exact sep_give s
              · exact subTail_sep s
            · exact Or.inl (s.setErr _)
          · exact subTail_sep s
      · exact Or.inl (s.setErr _)
    · exact Or.inl (s.setErr _)

theorem concatLoad_sep {vm : VM} {k : VM → Res VM} (hk : ∀ w, Sep fl P vm w → SepT fl P vm (k w)) : ∀ (n i : Nat) (v : VM), Sep fl P vm v → SepT fl P vm (concatLoad n i v k)
  | 0, _, v, s => hk v s
  | n + 1, i, v, s => by
    unfold concatLoad
    refine sep_load s fun v s => tl_any fun o => ?_
    split
    · exact concatLoad_sep hk n (i + 1) v s
    · exact Or.inl (s.setErr _)

theorem strConcat_sep {vm : VM} (h : Apart fl P vm) : SepT fl P vm (VM.strConcat vm) := by
  unfold VM.strConcat
  refine tl_any fun k => ?_
  split
  · exact Or.inl ((Sep.refl h).setErr _)
  · refine concatLoad_sep (fun v s => tl_any fun b => ?_) _ _ _ (Sep.refl h)
    split
    · trivial
    · exact tl_then (sep_pushStr s) fun _ s => sep_ret1 s

theorem strToString_sep {vm : VM} (h : Apart fl P vm) : SepT fl P vm (strToString vm) := by
  refine sep_arg1 h fun _ s => tl_any fun _ => ?_
  split
  · exact tl_then (sep_pushStr s) fun _ s => sep_ret1 s
  · exact tl_then (sep_pushStr s) fun _ s => sep_ret1 s
  · trivial

theorem strToInt_sep {vm : VM} (h : Apart fl P vm) : SepT fl P vm (strToInt vm) := by
  refine sep_arg1 h fun _ s => tl_any fun _ => ?_
  split
  · split
    · exact sep_give s
    · split
      · exact sep_give s
      · exact sep_give s
  · exact Or.inl (s.setErr _)

/-- The modelled functions of the library, with those of the neighbors (order of registration in buzzneighbors.c 48-62). -/
def robotFuns (E : Env) (other : CFuns) : CFuns := Sim.stdFuns E (fun n vm =>
  match n with
  | 8 => neighborsBroadcast E vm
  | 9 => neighborsListen vm
  | 10 => neighborsIgnore vm
  | n => other n vm)

theorem robotFuns_sep {E : Env} {other : CFuns} (ho : FApart other) : FApart (robotFuns E other) := by
  intro n fl P vm h
  unfold robotFuns Sim.stdFuns
  split
  · exact nbrGet_sep h
  · exact nbrCount_sep h
  · exact objType_sep h
  · exact objInt_sep h
  · exact objFloat_sep h
  · exact objSize_sep h
  iterate 7 exact objIs_sep h _
  · exact mathAbs_sep h
  iterate 3 exact mathRound_sep h
  · exact mathPick_sep h
  · exact mathPick_sep h
  · exact strLength_sep h
  · exact strSub_sep h
  · exact strConcat_sep h
  · exact strToString_sep h
  · exact strToInt_sep h
  · simp only
    split
    · exact broadcast_sep h
    · exact listen_sep h
    · exact ignore_sep h
    · exact ho _ fl P vm h

end Buzz.VM
