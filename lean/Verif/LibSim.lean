import Verif.SemLib
import Verif.NbrLib
import Verif.SimTab
import Verif.Props.StringLib

/-
The functions of the library do what their meaning (`Verif/SemLib.lean`) says.
-/
namespace Buzz.Sim

open Buzz.F32 Buzz.Msg Buzz.Heap Buzz.Props Buzz.VM Buzz.MathLib
open Buzz.Lang (St Ans fun1)

/-- The C functions of the library by number (the order of registration, buzzvm.c 653-705); `other` are the ones that are not modelled. -/
def stdFuns (E : Env) (other : CFuns) : CFuns := fun n vm =>
  match n with
  | 0 => nbrGet E vm
  | 7 => nbrCount E vm
  | 11 => objType vm
  | 12 => objInt vm
  | 13 => objFloat vm
  | 15 => objSize vm
  | 20 => objIs "nil" vm
  | 21 => objIs "integer" vm
  | 22 => objIs "float" vm
  | 23 => objIs "string" vm
  | 24 => objIs "table" vm
  | 25 => objIs "closure" vm
  | 26 => objIs "userdata" vm
  | 33 => mathAbs vm
  | 34 => mathRound Int.floor vm
  | 35 => mathRound Int.ceil vm
  | 36 => mathRound roundAway vm
  | 48 => mathMin E vm
  | 49 => mathMax E vm
  | 59 => strLength vm
  | 60 => VM.strSub vm
  | 61 => VM.strConcat vm
  | 62 => strToString vm
  | 63 => strToInt vm
  | n => other n vm

/-! ### The functions keep memory valid -/

/-- Anything is allowed but a broken memory. -/
abbrev Okay (r : Res VM) : Prop := Outcome VInv (fun _ => True) r

theorem okay_err {vm : VM} (i : VInv vm) (e : Err) : Okay (pure (setErr vm e)) := i.setErr e

/-- Arguments of a function. -/
theorem args_of {vm : VM} (i : VInv vm) {f : Frame} {fs : List Frame} (hf : vm.frames = f :: fs) {k : Nat} (hk : k < f.syms.length) :
    ∃ a c, f.syms[k]? = some a ∧ Holds vm.heap a c ∧ lload vm k = .ok (pushAddr vm a) ∧ VInv (pushAddr vm a) ∧ peek (pushAddr vm a) 1 = .ok (objOf a c) ∧
      peekCell (pushAddr vm a) 1 = .ok c ∧ peekAddr (pushAddr vm a) 1 = .ok a := by
  obtain ⟨c, hc⟩ := i.frames f (by rw [hf]; exact List.mem_cons_self ..) f.syms[k] (List.getElem_mem hk)
  obtain ⟨h1, h2, h3⟩ := VM.peek_top (vm := vm) hc vm.stack
  exact ⟨f.syms[k], c, List.getElem?_eq_getElem hk, hc, lload_at hf (List.getElem?_eq_getElem hk), i.pushAddr ⟨c, hc⟩, h1, h2, h3⟩

theorem okay_lnum {vm : VM} {k : Int → Res VM} (h : ∀ f fs, vm.frames = f :: fs → Okay (k ((f.syms.length : Int) - 1))) : Okay (lnum vm >>= k) := by
  unfold lnum
  cases hf : vm.frames with
  | nil => trivial
  | cons f fs => exact h f fs hf

theorem okay_one {vm : VM} (i : VInv vm) {g : VM → Res VM} (h : ∀ a c, Holds vm.heap a c → VInv (pushAddr vm a) → peek (pushAddr vm a) 1 = .ok (objOf a c) →
    peekCell (pushAddr vm a) 1 = .ok c → Okay (g (pushAddr vm a))) :
    Okay (lnum vm >>= fun n => if n ≠ 1 then pure (setErr vm .lnum) else lload vm 1 >>= g) := by
  refine okay_lnum fun f fs hf => ?_
  split
  · exact okay_err i _
  · rename_i hn
    obtain ⟨a, c, _, h2, h3, h4, h5, h6, _⟩ := args_of i hf (k := 1) (by omega)
    rw [h3, Res.ok_bind]
    exact h a c h2 h4 h5 h6

theorem okay_ret {vm : VM} (i : VInv vm) (hr : vm.state = .ready) : Okay (ret1 vm) := ret1_out i (by rw [hr]; simp) (fun _ => trivial)

theorem okay_retPush {vm : VM} (i : VInv vm) (hr : vm.state = .ready) {c : Cell} (hc : CellOk vm.heap vm.strings c) : Okay (ret1 (push vm c)) := okay_ret (i.push hc) hr

theorem okay_retStr {vm : VM} (i : VInv vm) (hr : vm.state = .ready) (hz : vm.strings.id2str.length ≤ 65533) (s : Bytes) : Okay (pushStr vm s >>= fun vm => ret1 vm) := by
  obtain ⟨sm', id, e1, e2, _, e4, e5, e6⟩ := register_inv i.strings hz s false
  have iv := i.setStrings e2 e6
  unfold pushStr pushS
  rw [e1]
  simp only [Res.ok_bind, Nat.mod_eq_of_lt e5, e4]
  exact okay_retPush iv hr e4

theorem i32_intOfU32 (n : Nat) : I32 (intOfU32 (n % 4294967296)) := by
  unfold I32 intOfU32
  split <;> omega

theorem okay_toI32 {n : Int} {k : Int → Res VM} (h : I32 n → Okay (k n)) : Okay (toI32c n >>= k) := by
  unfold toI32c
  split
  · rename_i hn
    exact h hn
  · trivial

theorem objType_okay {vm : VM} (i : VInv vm) (hr : vm.state = .ready) (hz : vm.strings.id2str.length ≤ 65533) : Okay (objType vm) := by
  refine okay_one i fun a c hc iv hp _ => ?_
  rw [hp, Res.ok_bind]
  exact okay_retStr (iv.popN 1) hr hz _

theorem objInt_okay {vm : VM} (i : VInv vm) (hr : vm.state = .ready) : Okay (objInt vm) := by
  refine okay_one i fun a c hc iv hp _ => ?_
  rw [hp, Res.ok_bind]
  split
  · exact okay_toI32 fun hn => okay_retPush (iv.popN 1) hr hn
  · trivial
  · exact okay_err iv _

theorem objFloat_okay {vm : VM} (i : VInv vm) (hr : vm.state = .ready) : Okay (objFloat vm) := by
  refine okay_one i fun a c hc iv hp _ => ?_
  rw [hp, Res.ok_bind]
  split
  · exact okay_retPush (iv.popN 1) hr trivial
  · exact okay_err iv _

theorem objSize_okay {vm : VM} (i : VInv vm) (hr : vm.state = .ready) : Okay (objSize vm) := by
  refine okay_one i fun a c hc iv _ hp => ?_
  rw [hp, Res.ok_bind]
  split
  · exact okay_retPush (iv.popN 1) hr (i32_intOfU32 _)
  · exact okay_err iv _

theorem objIs_okay {vm : VM} (i : VInv vm) (hr : vm.state = .ready) (name : String) : Okay (objIs name vm) := by
  refine okay_one i fun a c hc iv hp _ => ?_
  rw [hp, Res.ok_bind]
  refine okay_retPush iv hr ?_
  show I32 _
  unfold I32
  split <;> omega

theorem mathAbs_okay {vm : VM} (i : VInv vm) (hr : vm.state = .ready) : Okay (mathAbs vm) := by
  refine okay_one i fun a c hc iv hp _ => ?_
  rw [hp, Res.ok_bind]
  split
  · exact okay_retPush iv hr trivial
  · exact okay_toI32 fun hn => okay_retPush iv hr hn
  · exact okay_err iv _

theorem int_cell {vm : VM} (i : VInv vm) {a : Nat} {c : Cell} {v : Int} (h : Holds vm.heap a c) (e : objOf a c = .int v) : I32 v := by
  cases c with
  | atom o => cases e; exact i.cells a _ h
  | tab t => cases e
  | clo x y z => cases e

theorem mathRound_okay {vm : VM} (i : VInv vm) (hr : vm.state = .ready) (f : ℚ → Int) : Okay (mathRound f vm) := by
  refine okay_one i fun a c hc iv hp _ => ?_
  rw [hp, Res.ok_bind]
  split
  · exact okay_toI32 fun hn => okay_retPush iv hr hn
  · trivial
  · rename_i hv
    exact okay_retPush iv hr (int_cell i hc hv)
  · exact okay_err iv _

theorem mathPick_okay {E : Env} {first : Int → Bool} {vm : VM} (i : VInv vm) (hr : vm.state = .ready) : Okay (mathPick E first vm) := by
  refine okay_lnum fun f fs hf => ?_
  split
  · exact okay_err i _
  · rename_i hn
    obtain ⟨a, c, _, h2, h3, h4, h5, _, h7⟩ := args_of i hf (k := 1) (by omega)
    obtain ⟨b, d, _, g2, g3, g4, g5, _, g7⟩ := args_of (vm := pushAddr vm a) h4 hf (k := 2) (by omega)
    simp only [h3, h5, h7, g3, g5, g7, Res.ok_bind]
    cases Obj.cmp E.sc (objOf a c) (objOf b d) with
    | ok v =>
      rw [Res.ok_bind]
      refine okay_ret (g4.pushAddr ?_) hr
      split
      · exact ⟨c, h2⟩
      · exact ⟨d, g2⟩
    | _ => trivial

theorem strLength_okay {vm : VM} (i : VInv vm) (hr : vm.state = .ready) : Okay (strLength vm) := by
  refine okay_one i fun a c hc iv hp _ => ?_
  rw [hp, Res.ok_bind]
  split
  · exact okay_retPush iv hr (i32_intOfU32 _)
  · exact okay_err iv _

theorem strToString_okay {vm : VM} (i : VInv vm) (hr : vm.state = .ready) (hz : vm.strings.id2str.length ≤ 65533) : Okay (strToString vm) := by
  refine okay_one i fun a c hc iv hp _ => ?_
  rw [hp, Res.ok_bind]
  split
  · exact okay_retStr iv hr hz _
  · exact okay_retStr iv hr hz _
  · trivial

theorem strtol32_i32 (v : Int) : I32 (strtol32 v).1 := by
  unfold strtol32
  split
  · unfold I32; omega
  · split
    · unfold I32; omega
    · have h : (v % 4294967296).toNat = (v % 4294967296).toNat % 4294967296 := by omega
      rw [h]
      exact i32_intOfU32 _

theorem strToInt_okay {vm : VM} (i : VInv vm) (hr : vm.state = .ready) : Okay (strToInt vm) := by
  refine okay_one i fun a c hc iv hp _ => ?_
  rw [hp, Res.ok_bind]
  split
  · split
    · exact okay_retPush iv hr trivial
    · split
      · exact okay_retPush iv hr trivial
      · exact okay_retPush iv hr (strtol32_i32 _)
  · exact okay_err iv _

theorem subTail_okay {vm : VM} (i : VInv vm) (hr : vm.state = .ready) (hz : vm.strings.id2str.length ≤ 65533) (s : Bytes) (n m : Int) : Okay (subTail vm s n m) := by
  unfold subTail
  split
  · trivial
  · exact okay_retStr i hr hz _

theorem strSub_okay {vm : VM} (i : VInv vm) (hr : vm.state = .ready) (hz : vm.strings.id2str.length ≤ 65533) : Okay (VM.strSub vm) := by
  refine okay_lnum fun f fs hf => ?_
  split
  · exact okay_err i _
  · rename_i hn
    obtain ⟨a, c, _, h2, h3, h4, h5, _, _⟩ := args_of i hf (k := 1) (by omega)
    obtain ⟨b, d, _, g2, g3, g4, g5, _, _⟩ := args_of (vm := pushAddr vm a) h4 hf (k := 2) (by omega)
    rw [h3, Res.ok_bind, h5, Res.ok_bind]
    split
    · rw [g3, Res.ok_bind, g5, Res.ok_bind]
      split
      · split
        · exact okay_retPush g4 hr trivial
        · split
          · rename_i h3'
            obtain ⟨a', c', _, k2, k3, k4, k5, _, _⟩ := args_of (vm := pushAddr (pushAddr vm a) b) g4 hf (k := 3) (by omega)
            rw [k3, Res.ok_bind, k5, Res.ok_bind]
            split
            · split
              · exact okay_retPush k4 hr trivial
              · exact subTail_okay k4 hr hz _ _ _
            · exact okay_err k4 _
          · exact subTail_okay g4 hr hz _ _ _
      · exact okay_err g4 _
    · exact okay_err h4 _

theorem concatLoad_okay {f : Frame} {fs : List Frame} {k : VM → Res VM} {sm : Strman.SM Bytes} (hk : ∀ u, VInv u → u.state = .ready → u.strings = sm → Okay (k u)) :
    ∀ (n j : Nat) (vm : VM), VInv vm → vm.state = .ready → vm.strings = sm → vm.frames = f :: fs → j + n ≤ f.syms.length → Okay (concatLoad n j vm k) := by
  intro n
  induction n with
  | zero => intro j vm i hr hs _ _; exact hk vm i hr hs
  | succ n ih =>
    intro j vm i hr hs hf hj
    obtain ⟨a, c, _, h2, h3, h4, h5, _, _⟩ := args_of i hf (k := j) (by omega)
    rw [concatLoad, h3, Res.ok_bind, h5, Res.ok_bind]
    split
    · exact ih (j + 1) _ h4 hr hs hf (by omega)
    · exact okay_err h4 _

theorem strConcat_okay {vm : VM} (i : VInv vm) (hr : vm.state = .ready) (hz : vm.strings.id2str.length ≤ 65533) : Okay (VM.strConcat vm) := by
  refine okay_lnum fun f fs hf => ?_
  split
  · exact okay_err i _
  · refine concatLoad_okay (sm := vm.strings) (fun u iu hu hs => ?_) _ _ vm i hr rfl hf (by omega)
    cases concatJoin u ((f.syms.length : Int) - 1).toNat with
    | ok s =>
      rw [Res.ok_bind]
      split
      · trivial
      · exact okay_retStr iu hu (by rw [hs]; exact hz) _
    | _ => trivial

theorem okay_retAny {vm : VM} (i : VInv vm) (hr : vm.state = .ready ∨ vm.state = .error) : Okay (ret1 vm) := by
  rcases hr with hr | hr
  · exact okay_ret i hr
  · unfold ret1
    split
    · trivial
    · rename_i f fs hf
      simp only
      refine need_rule (n := 1) ?_ (fun hl => ?_)
      · exact { i with depth := fun h => absurd rfl h, frames := fun x hx => i.frames x (by rw [hf]; exact List.mem_cons_of_mem _ hx) }
      obtain ⟨a1, c1, g1, k1, q1, r1, p1⟩ := peek_ok i (n := 0) hl
      simp only [Nat.zero_add, Nat.cast_one] at q1
      have q1' : peekAddr { vm with swarmstack := if f.swarm then vm.swarmstack.tail else vm.swarmstack, frames := fs } 1 = .ok a1 := q1
      rw [q1', Res.ok_bind]
      split
      · trivial
      · rename_i s r hrs
        have iv : VInv { vm with swarmstack := if f.swarm then vm.swarmstack.tail else vm.swarmstack, frames := fs, stack := s, rest := r } := by
          refine { i with stack := ?_, rest := ?_, frames := ?_, depth := fun h => absurd hr h }
          · exact i.rest s (by rw [hrs]; exact List.mem_cons_self ..)
          · exact fun x hx => i.rest x (by rw [hrs]; exact List.mem_cons_of_mem _ hx)
          · exact fun x hx => i.frames x (by rw [hf]; exact List.mem_cons_of_mem _ hx)
        exact retTo_out iv (fun v iv hh => iv.pushAddr ⟨c1, hh ▸ k1⟩)

/-- Reading a table leaves the frames, and the state is as before or an error. -/
theorem tget_state {E : Env} {vm vm' : VM} (h : tget E vm = .ok vm') : vm'.frames = vm.frames ∧ (vm'.state = vm.state ∨ vm'.state = .error) := by
  unfold tget need at h
  split at h
  · cases h; exact ⟨rfl, .inr rfl⟩
  · obtain ⟨c, _, h⟩ := Res.bind_eq_ok.mp h
    split at h
    · obtain ⟨k, _, h⟩ := Res.bind_eq_ok.mp h
      split at h
      · obtain ⟨r, _, h⟩ := Res.bind_eq_ok.mp h
        cases r <;> (cases h; exact ⟨rfl, .inl rfl⟩)
      · cases h
    · cases h; exact ⟨rfl, .inr rfl⟩

theorem okay_tget {E : Env} {vm : VM} {k : VM → Res VM} (i : VInv vm) (h : ∀ v, VInv v → v.frames = vm.frames → (v.state = vm.state ∨ v.state = .error) → Okay (k v)) :
    Okay (tget E vm >>= k) := by
  have ho := tget_out (E := E) (F := fun _ vm => .ok vm) i
  cases ht : tget E vm with
  | ok v =>
    rw [ht] at ho
    obtain ⟨h1, h2⟩ := tget_state ht
    rw [Res.ok_bind]
    exact h v ho.1 h1 h2
  | _ => trivial

theorem okay_pushName {vm : VM} {k : VM → Res VM} (i : VInv vm) (hz : vm.strings.id2str.length ≤ 65533) (x : String)
    (h : ∀ v, VInv v → v.frames = vm.frames → v.state = vm.state → Okay (k v)) : Okay (pushName x vm >>= k) := by
  obtain ⟨sm', id, e1, e2, _, e4, e5, e6⟩ := register_inv i.strings hz (ascii x) true
  have iv := i.setStrings e2 e6
  unfold pushName pushS
  rw [e1]
  simp only [Res.ok_bind, Nat.mod_eq_of_lt e5, e4]
  exact h _ (iv.push (c := .atom (.str id (ascii x))) e4) rfl rfl

theorem res_bind_assoc {α β γ : Type} (x : Res α) (f : α → Res β) (g : β → Res γ) : ((x >>= f) >>= g) = (x >>= fun a => f a >>= g) := by
  cases x <;> rfl

theorem okay_poses {E : Env} {vm : VM} {k : VM → Res VM} (i : VInv vm) (hr : vm.state = .ready) (hz : vm.strings.id2str.length ≤ 65533) {f : Frame} {fs : List Frame} (hf : vm.frames = f :: fs)
    (hn : 0 < f.syms.length) (h : ∀ v, VInv v → v.frames = vm.frames → (v.state = .ready ∨ v.state = .error) → Okay (k v)) : Okay (nbrPoses E vm >>= k) := by
  obtain ⟨a, c, _, h2, h3, h4, _⟩ := args_of i hf (k := 0) hn
  unfold nbrPoses
  rw [h3, Res.ok_bind, res_bind_assoc]
  refine okay_pushName h4 hz _ fun v iv hvf hvs => ?_
  refine okay_tget iv fun w iw hwf hws => h w iw (hwf.trans hvf) ?_
  rw [hvs] at hws
  exact hws.imp_left fun e => e.trans hr

theorem nbrGet_okay {E : Env} {vm : VM} (i : VInv vm) (hr : vm.state = .ready) (hz : vm.strings.id2str.length ≤ 65533) : Okay (nbrGet E vm) := by
  refine okay_lnum fun f fs hf => ?_
  split
  · exact okay_err i _
  · rename_i hn
    refine okay_poses i hr hz hf (by omega) fun v iv hvf hvs => ?_
    cases hp : peek v 1 with
    | ok o =>
      rw [Res.ok_bind]
      split
      · exact okay_retAny (iv.push trivial) hvs
      · obtain ⟨a, c, _, h2, h3, h4, _⟩ := args_of iv (hvf.trans hf) (k := 1) (by omega)
        rw [h3, Res.ok_bind]
        refine okay_tget h4 fun w iw _ hws => okay_retAny iw ?_
        rcases hws with e | e
        · rw [e]; exact hvs
        · exact .inr e
    | _ => trivial

theorem nbrCount_okay {E : Env} {vm : VM} (i : VInv vm) (hr : vm.state = .ready) (hz : vm.strings.id2str.length ≤ 65533) : Okay (nbrCount E vm) := by
  refine okay_lnum fun f fs hf => ?_
  split
  · exact okay_err i _
  · rename_i hn
    refine okay_poses i hr hz hf (by omega) fun v iv hvf hvs => ?_
    cases hp : peekCell v 1 with
    | ok o =>
      rw [Res.ok_bind]
      split
      · exact okay_retAny (iv.push (c := .atom (.int 0)) (by show I32 0; unfold I32; omega)) hvs
      · exact okay_retAny (iv.push (c := .atom (.int _)) (i32_intOfU32 _)) hvs
      · trivial
    | _ => trivial

theorem stdFuns_okay {E : Env} {other : CFuns} (ho : FOk other) {n : Nat} {vm vm' : VM} (i : VInv vm) (hr : vm.state = .ready) (hz : vm.strings.id2str.length ≤ 65533)
    (h : stdFuns E other n vm = .ok vm') : VInv vm' := by
  have : Okay (stdFuns E other n vm) := by
    unfold stdFuns
    split
    · exact nbrGet_okay i hr hz
    · exact nbrCount_okay i hr hz
    · exact objType_okay i hr hz
    · exact objInt_okay i hr
    · exact objFloat_okay i hr
    · exact objSize_okay i hr
    · exact objIs_okay i hr _
    · exact objIs_okay i hr _
    · exact objIs_okay i hr _
    · exact objIs_okay i hr _
    · exact objIs_okay i hr _
    · exact objIs_okay i hr _
    · exact objIs_okay i hr _
    · exact mathAbs_okay i hr
    · exact mathRound_okay i hr _
    · exact mathRound_okay i hr _
    · exact mathRound_okay i hr _
    · exact mathPick_okay i hr
    · exact mathPick_okay i hr
    · exact strLength_okay i hr
    · exact strSub_okay i hr hz
    · exact strConcat_okay i hr hz
    · exact strToString_okay i hr hz
    · exact strToInt_okay i hr
    · cases ho' : other n vm with
      | ok v => exact ho n vm v i hr ho'
      | _ => trivial
  rw [h] at this
  exact this

/-! ### The functions compute what their meaning says -/

/-- The machine has called a function with these arguments (without `self`). -/
structure Call (K : Ctx) (ρ : List Nat) (s : St) (vm : VM) (f : Frame) (vals : List Obj) : Prop where
  core : Core K ρ s vm
  args : ∃ fs self as, vm.frames = f :: fs ∧ f.syms = self :: as ∧ List.Forall₂ (fun v a => Rep ρ vm.heap v a) vals as
  back : ∃ ra S rs m, vm.rest = (ra :: S) :: rs ∧ Holds vm.heap ra (.atom (.int (m : Nat))) ∧ m < K.code.length
  room : vm.strings.id2str.length ≤ 65533

/-- Inside such a function nothing but new objects and strings has come to the machine, and its stack may differ. -/
structure Inner (vm u : VM) : Prop where
  inv : VInv u
  same : (u.state, u.code, u.nfuns, u.gsyms, u.frames, u.rest) = (vm.state, vm.code, vm.nfuns, vm.gsyms, vm.frames, vm.rest)
  ext : Ext vm.heap u.heap
  old : ∀ a c, Holds vm.heap a c → Holds u.heap a c
  prot : ∀ x j, FMap.get vm.strings.id2str j = some (x, true) → FMap.get u.strings.id2str j = some (x, true)
  room : vm.strings.id2str.length ≤ 65533 → u.strings.id2str.length ≤ 65534

theorem Inner.refl {vm : VM} (i : VInv vm) : Inner vm vm := ⟨i, rfl, Ext.refl _, fun _ _ h => h, fun _ _ h => h, fun h => by omega⟩

theorem Inner.pushAddr {vm u : VM} (h : Inner vm u) {a : Nat} {c : Cell} (hc : Holds vm.heap a c) : Inner vm (pushAddr u a) :=
  { h with inv := h.inv.pushAddr ⟨c, h.old a c hc⟩ }

theorem Inner.popN {vm u : VM} (h : Inner vm u) (n : Nat) : Inner vm (popN u n) := { h with inv := h.inv.popN n }

theorem Inner.push {vm u : VM} (h : Inner vm u) {c : Cell} (hc : CellOk u.heap u.strings c) : Inner vm (push u c) :=
  { h with inv := h.inv.push hc, ext := h.ext.trans (ext_new h.inv.heap c), old := fun a d hd => holds_old h.inv.heap (h.old a d hd) }

theorem register_prot {sm : Strman.SM Bytes} (i : Strman.Inv sm) (hl : sm.id2str.length ≤ 65533) (s : Bytes) (p : Bool) {sm' : Strman.SM Bytes} {id : Nat}
    (h : Strman.register sm s p = .ok (sm', id)) : ∀ x j, FMap.get sm.id2str j = some (x, true) → FMap.get sm'.id2str j = some (x, true) := by
  intro x j hx
  cases hs : FMap.get sm.str2id s with
  | some k =>
    obtain ⟨sm2, h1, _, _, _, h5, _⟩ := Strman.register_old i hs p
    rw [h1] at h
    cases h
    exact (h5 j x true).mpr ⟨true, hx, rfl⟩
  | none =>
    obtain ⟨sm2, k, h1, _, h3, h4, _⟩ := Strman.register_new i hs p hl
    rw [h1] at h
    cases h
    rw [h4, if_neg]
    · exact hx
    · rintro rfl
      rw [h3] at hx
      cases hx

/-- The result of a function of the library. -/
def Does (K : Ctx) (ρ : List Nat) (s : St) (vm : VM) (r : Res VM) : Ans → Prop
  | .val v => ∃ vm', r = .ok vm' ∧ RetOf K vm ρ v s vm'
  | .err e => ∃ vm', r = .ok vm' ∧ vm'.state = .error ∧ vm'.error = e
  | .odd => True

variable {K : Ctx} {ρ : List Nat} {s : St} {vm : VM} {f : Frame} {vals : List Obj}

theorem does_err {u : VM} {e : Err} : Does K ρ s vm (pure (setErr u e)) (.err e) := ⟨_, rfl, rfl, rfl⟩

/-- `ret1` with a value on top of the stack. -/
theorem Call.ret (c : Call K ρ s vm f vals) {u : VM} (h : Inner vm u) {a : Nat} {l : List Nat} (hst : u.stack = a :: l) {v : Obj} (hv : Rep ρ u.heap v a) :
    Does K ρ s vm (ret1 u) (.val v) := by
  obtain ⟨fs, self, as, hf, _, _⟩ := c.args
  obtain ⟨ra, S, rs, m, hr, hm, hlt⟩ := c.back
  have hs := h.same
  simp only [Prod.mk.injEq] at hs
  obtain ⟨s1, s2, s3, s4, s5, s6⟩ := hs
  have hu := ret1_eq (s5.trans hf) (s6.trans hr) (h.old _ _ hm) hst
  have iv := ret1_out (C := fun _ => True) h.inv (by rw [s1, c.core.ready]; simp) (fun _ => trivial)
  rw [hu] at iv
  refine ⟨_, hu, ρ, a, ra, S, rs, hr, fun n _ hn => ?_, rfl, rfl, by rw [hf]; rfl, ?_, hv, h.ext.evo, List.prefix_refl _⟩
  · cases holds_inj hm hn
    rfl
  · exact c.core.ext iv (s1.trans c.core.ready) (by show (u.code, u.nfuns) = _; rw [s2, s3]) h.prot h.ext s4 rfl rfl

/-- `ret1` with a new value. -/
theorem Call.ret_push (c : Call K ρ s vm f vals) {u : VM} (h : Inner vm u) {d : Cell} (hd : CellOk u.heap u.strings d) {v : Obj} (hv : Img ρ v (objOf u.heap.brk d)) :
    Does K ρ s vm (ret1 (push u d)) (.val v) :=
  c.ret (h.push hd) rfl ⟨d, holds_new h.inv.heap d, hv⟩

theorem Call.ret_int (c : Call K ρ s vm f vals) {u : VM} (h : Inner vm u) {n : Int} (hn : I32 n) : Does K ρ s vm (ret1 (pushInt u n)) (.val (.int n)) :=
  c.ret_push (d := .atom (.int n)) h hn rfl

theorem Call.ret_flt (c : Call K ρ s vm f vals) {u : VM} (h : Inner vm u) (x : Flt) : Does K ρ s vm (ret1 (pushFlt u x)) (.val (.flt x)) :=
  c.ret_push (d := .atom (.flt x)) h trivial rfl

theorem Call.ret_nil (c : Call K ρ s vm f vals) {u : VM} (h : Inner vm u) : Does K ρ s vm (ret1 (pushNil u)) (.val .nil) :=
  c.ret_push (d := .atom .nil) h trivial rfl

theorem Call.ret_str (c : Call K ρ s vm f vals) {u : VM} (h : Inner vm u) (hz : u.strings = vm.strings) {t : Bytes} (ht : Obj.CStr t) :
    Does K ρ s vm (pushStr u t >>= fun u => ret1 u) (.val (.str 0 t)) := by
  have hz' : u.strings.id2str.length ≤ 65533 := by rw [hz]; exact c.room
  obtain ⟨sm', id, e1, e2, e3, e4, e5, e6⟩ := register_inv h.inv.strings hz' t false
  have hp := register_prot h.inv.strings hz' t false e1
  have iv := h.inv.setStrings e2 e6
  have h2 : Inner vm { u with strings := sm' } := { h with inv := iv, prot := fun x j hx => hp x j (h.prot x j hx), room := fun _ => by show sm'.id2str.length ≤ _; omega }
  unfold pushStr pushS
  rw [e1]
  simp only [Res.ok_bind, Nat.mod_eq_of_lt e5, e4]
  exact c.ret_push (d := .atom (.str id t)) h2 e4 ⟨rfl, ht, id, rfl⟩

theorem Call.lnum (c : Call K ρ s vm f vals) : lnum vm = .ok vals.length := by
  obtain ⟨fs, self, as, hf, hs, hr⟩ := c.args
  unfold VM.lnum
  rw [hf]
  simp [hs, hr.length_eq]

/-- Loading an argument. -/
theorem Call.load (c : Call K ρ s vm f vals) {u : VM} (h : Inner vm u) {k : Nat} {v : Obj} (hk : vals[k]? = some v) :
    ∃ a d, Holds vm.heap a d ∧ Img ρ v (objOf a d) ∧ lload u (k + 1) = .ok (VM.pushAddr u a) ∧ Inner vm (VM.pushAddr u a) ∧ peek (VM.pushAddr u a) 1 = .ok (objOf a d) ∧
      peekCell (VM.pushAddr u a) 1 = .ok d ∧ peekAddr (VM.pushAddr u a) 1 = .ok a := by
  obtain ⟨fs, self, as, hf, hs, hr⟩ := c.args
  obtain ⟨hk1, hk2⟩ := List.getElem?_eq_some_iff.mp hk
  have hl := hr.length_eq
  have hk' : k < as.length := by omega
  have hrep : Rep ρ vm.heap v as[k] := by
    have := List.Forall₂.get hr hk1 hk'
    simp only [List.get_eq_getElem] at this
    rw [hk2] at this
    exact this
  obtain ⟨d, h1, h2⟩ := hrep
  have hfu : u.frames = f :: fs := by
    have := h.same
    simp only [Prod.mk.injEq] at this
    exact this.2.2.2.2.1.trans hf
  obtain ⟨p1, p2, p3⟩ := VM.peek_top (vm := u) (h.old _ _ h1) u.stack
  refine ⟨as[k], d, h1, h2, lload_at hfu ?_, h.pushAddr h1, p1, p2, p3⟩
  rw [hs, List.getElem?_cons_succ]
  exact List.getElem?_eq_getElem hk'

/-- Functions of one argument. -/
theorem Call.one (c : Call K ρ s vm f vals) {g : VM → Res VM} {m : Obj → Ans} (h : ∀ v a d, vals = [v] → Holds vm.heap a d → Img ρ v (objOf a d) → Inner vm (VM.pushAddr vm a) →
    peek (VM.pushAddr vm a) 1 = .ok (objOf a d) → peekCell (VM.pushAddr vm a) 1 = .ok d → Does K ρ s vm (g (VM.pushAddr vm a)) (m v)) :
    Does K ρ s vm (VM.lnum vm >>= fun n => if n ≠ 1 then pure (setErr vm .lnum) else lload vm 1 >>= g) (fun1 m vals) := by
  rw [c.lnum, Res.ok_bind]
  match vals, c, h with
  | [], c, h => exact does_err
  | [v], c, h =>
    obtain ⟨a, d, h1, h2, h3, h4, h5, h6, _⟩ := c.load (Inner.refl c.core.inv) (k := 0) (v := v) rfl
    rw [if_neg (by simp), h3, Res.ok_bind]
    exact h v a d rfl h1 h2 h4 h5 h6
  | v :: w :: vs, c, h =>
    rw [if_pos (by simp only [List.length_cons, Nat.cast_add, Nat.cast_one]; omega)]
    exact does_err

theorem typeDesc_img {v o : Obj} (h : Img ρ v o) : typeDesc o = typeDesc v := by
  cases v with
  | tab l => obtain ⟨a, _, rfl⟩ := h; rfl
  | clo l => obtain ⟨a, _, rfl⟩ := h; rfl
  | str j x => obtain ⟨_, _, j, rfl⟩ := h; rfl
  | _ => cases h; rfl

theorem typeDesc_cstr (v : Obj) : Obj.CStr (ascii (typeDesc v)) := by
  have h : ∀ n ∈ ["nil", "integer", "float", "string", "table", "closure", "userdata"], ∀ c ∈ ascii n, c ≠ 0 := by decide +kernel
  cases v <;> exact h _ (by simp [typeDesc])

theorem type_does (c : Call K ρ s vm f vals) : Does K ρ s vm (objType vm) (fun1 Lang.libType vals) := by
  refine c.one fun v a d _ h1 h2 h3 h4 _ => ?_
  rw [h4, Res.ok_bind, typeDesc_img h2]
  have : Lang.libType v = .val (.str 0 (ascii (typeDesc v))) := by cases v <;> rfl
  rw [this]
  exact c.ret_str (h3.popN 1) rfl (typeDesc_cstr v)

theorem does_toI32 {n : Int} {k : Int → Res VM} (h : I32 n → Does K ρ s vm (k n) (.val (.int n))) : Does K ρ s vm (toI32c n >>= k) (Lang.intAns n) := by
  unfold toI32c Lang.intAns
  split
  · rename_i hn
    exact h hn
  · trivial

theorem int_does (c : Call K ρ s vm f vals) : Does K ρ s vm (objInt vm) (fun1 Lang.libInt vals) := by
  refine c.one fun v a d _ h1 h2 h3 h4 _ => ?_
  rw [h4, Res.ok_bind]
  cases v with
  | flt x =>
    rw [show objOf a d = .flt x from h2]
    cases x with
    | fin q => exact does_toI32 fun hn => c.ret_int (h3.popN 1) hn
    | _ => trivial
  | tab l => obtain ⟨_, _, e⟩ := h2; rw [e]; exact does_err
  | clo l => obtain ⟨_, _, e⟩ := h2; rw [e]; exact does_err
  | str j x => obtain ⟨_, _, _, e⟩ := h2; rw [e]; exact does_err
  | nil => rw [show objOf a d = _ from h2]; exact does_err
  | int v => rw [show objOf a d = _ from h2]; exact does_err
  | user v => rw [show objOf a d = _ from h2]; exact does_err

theorem float_does (c : Call K ρ s vm f vals) : Does K ρ s vm (objFloat vm) (fun1 Lang.libFloat vals) := by
  refine c.one fun v a d _ h1 h2 h3 h4 _ => ?_
  rw [h4, Res.ok_bind]
  cases v with
  | int v =>
    rw [show objOf a d = _ from h2]
    exact c.ret_flt (h3.popN 1) _
  | tab l => obtain ⟨_, _, e⟩ := h2; rw [e]; exact does_err
  | clo l => obtain ⟨_, _, e⟩ := h2; rw [e]; exact does_err
  | str j x => obtain ⟨_, _, _, e⟩ := h2; rw [e]; exact does_err
  | nil => rw [show objOf a d = _ from h2]; exact does_err
  | flt v => rw [show objOf a d = _ from h2]; exact does_err
  | user v => rw [show objOf a d = _ from h2]; exact does_err

theorem is_does (c : Call K ρ s vm f vals) (name : String) (p : Obj → Bool) (hp : ∀ v, p v = true ↔ typeDesc v = name) :
    Does K ρ s vm (objIs name vm) (fun1 (Lang.libIs p) vals) := by
  refine c.one fun v a d _ h1 h2 h3 h4 _ => ?_
  rw [h4, Res.ok_bind, typeDesc_img h2]
  have e : Lang.libIs p v = .val (.int (if typeDesc v = name then 1 else 0)) := by
    unfold Lang.libIs
    simp only [hp]
  rw [e]
  refine c.ret_int h3 ?_
  unfold I32
  split <;> omega

theorem abs_does (c : Call K ρ s vm f vals) : Does K ρ s vm (mathAbs vm) (fun1 Lang.mAbs vals) := by
  refine c.one fun v a d _ h1 h2 h3 h4 _ => ?_
  rw [h4, Res.ok_bind]
  cases v with
  | int v =>
    rw [show objOf a d = _ from h2]
    exact does_toI32 fun hn => c.ret_int h3 hn
  | flt v =>
    rw [show objOf a d = _ from h2]
    exact c.ret_flt h3 _
  | tab l => obtain ⟨_, _, e⟩ := h2; rw [e]; exact does_err
  | clo l => obtain ⟨_, _, e⟩ := h2; rw [e]; exact does_err
  | str j x => obtain ⟨_, _, _, e⟩ := h2; rw [e]; exact does_err
  | nil => rw [show objOf a d = _ from h2]; exact does_err
  | user v => rw [show objOf a d = _ from h2]; exact does_err

theorem round_does (c : Call K ρ s vm f vals) (r : ℚ → Int) : Does K ρ s vm (mathRound r vm) (fun1 (Lang.mRound r) vals) := by
  refine c.one fun v a d _ h1 h2 h3 h4 _ => ?_
  rw [h4, Res.ok_bind]
  cases v with
  | int v =>
    have e : objOf a d = .int v := h2
    rw [e]
    exact c.ret_int h3 (int_cell c.core.inv h1 e)
  | flt x =>
    rw [show objOf a d = .flt x from h2]
    cases x with
    | fin q => exact does_toI32 fun hn => c.ret_int h3 hn
    | _ => trivial
  | tab l => obtain ⟨_, _, e⟩ := h2; rw [e]; exact does_err
  | clo l => obtain ⟨_, _, e⟩ := h2; rw [e]; exact does_err
  | str j x => obtain ⟨_, _, _, e⟩ := h2; rw [e]; exact does_err
  | nil => rw [show objOf a d = _ from h2]; exact does_err
  | user v => rw [show objOf a d = _ from h2]; exact does_err

theorem cstr_of {t : Bytes} (h : Obj.CStr t) : cstr t = t := cstr_eq fun h0 => h 0 h0 rfl

theorem short_len {t : Bytes} (h : t.length < 2147483648) : intOfU32 (t.length % 4294967296) = t.length := by
  unfold intOfU32
  rw [Nat.mod_eq_of_lt (by omega), if_pos h]

theorem length_does (c : Call K ρ s vm f vals) : Does K ρ s vm (strLength vm) (fun1 Lang.strLen vals) := by
  refine c.one fun v a d _ h1 h2 h3 h4 _ => ?_
  rw [h4, Res.ok_bind]
  cases v with
  | str j x =>
    obtain ⟨_, hx, k, e⟩ := h2
    rw [e]
    simp only [Lang.strLen, Lang.short, decide_eq_true_eq]
    split
    · rename_i hl
      rw [cstr_of hx, short_len hl]
      exact c.ret_int h3 (by unfold I32; omega)
    · trivial
  | tab l => obtain ⟨_, _, e⟩ := h2; rw [e]; exact does_err
  | clo l => obtain ⟨_, _, e⟩ := h2; rw [e]; exact does_err
  | nil => rw [show objOf a d = _ from h2]; exact does_err
  | int v => rw [show objOf a d = _ from h2]; exact does_err
  | flt v => rw [show objOf a d = _ from h2]; exact does_err
  | user v => rw [show objOf a d = _ from h2]; exact does_err

theorem digits_cstr (n : Nat) : Obj.CStr (Obj.digits n) := fun c hc => (digit_not ((digits_ok n).2.1 c hc)).1

theorem cstr_append {a b : Bytes} (ha : Obj.CStr a) (hb : Obj.CStr b) : Obj.CStr (a ++ b) := fun c hc => (List.mem_append.mp hc).elim (ha c) (hb c)

theorem cstr_cons {x : UInt8} {b : Bytes} (ha : x ≠ 0) (hb : Obj.CStr b) : Obj.CStr (x :: b) := fun c hc => (List.mem_cons.mp hc).elim (fun e => e ▸ ha) (hb c)

theorem fmtD_cstr (v : Int) : Obj.CStr (Obj.fmtD v) := fun c hc e => fmt_text (v := v) (e ▸ hc)

theorem fmtF_cstr (x : Flt) : Obj.CStr (Obj.fmtF x) := by
  have hr : ∀ n, Obj.CStr (List.replicate n 48) := fun n c hc => by
    rw [List.eq_of_mem_replicate hc]
    decide
  cases x with
  | fin q =>
    have hb : ∀ n, Obj.CStr (Obj.digits (n / 1000000) ++ 46 :: Obj.sixDigits (n % 1000000)) := fun n =>
      cstr_append (digits_cstr _) (cstr_cons (by decide) (cstr_append (hr _) (digits_cstr _)))
    unfold Obj.fmtF
    simp only
    split
    · exact cstr_cons (by decide) (hb _)
    · exact hb _
  | inf b => cases b <;> (intro c hc; revert c; decide)
  | nan => intro c hc; revert c; decide

theorem tostring_does (c : Call K ρ s vm f vals) : Does K ρ s vm (strToString vm) (fun1 Lang.strOf vals) := by
  refine c.one fun v a d _ h1 h2 h3 h4 _ => ?_
  rw [h4, Res.ok_bind]
  cases v with
  | int v =>
    rw [show objOf a d = _ from h2]
    exact c.ret_str h3 rfl (fmtD_cstr v)
  | flt x =>
    rw [show objOf a d = _ from h2]
    exact c.ret_str h3 rfl (fmtF_cstr x)
  | _ => trivial

theorem toint_does (c : Call K ρ s vm f vals) : Does K ρ s vm (strToInt vm) (fun1 Lang.strInt vals) := by
  refine c.one fun v a d _ h1 h2 h3 h4 _ => ?_
  rw [h4, Res.ok_bind]
  cases v with
  | str j x =>
    obtain ⟨_, hx, k, e⟩ := h2
    rw [e]
    simp only [cstr_of hx, Lang.strInt]
    cases hv : strtol x with
    | none => exact c.ret_nil h3
    | some v =>
      simp only [Lang.intAns]
      by_cases hn : -2147483648 ≤ v ∧ v ≤ 2147483647
      · rw [if_pos hn, strtol32_id hn]
        exact c.ret_int h3 hn
      · rw [if_neg hn]
        trivial
  | tab l => obtain ⟨_, _, e⟩ := h2; rw [e]; exact does_err
  | clo l => obtain ⟨_, _, e⟩ := h2; rw [e]; exact does_err
  | nil => rw [show objOf a d = _ from h2]; exact does_err
  | int v => rw [show objOf a d = _ from h2]; exact does_err
  | flt v => rw [show objOf a d = _ from h2]; exact does_err
  | user v => rw [show objOf a d = _ from h2]; exact does_err

theorem sub_tail (c : Call K ρ s vm f vals) {u : VM} (h : Inner vm u) (hz : u.strings = vm.strings) {x : Bytes} (hx : Obj.CStr x) (n m m' : Int) (hm : x.take m.toNat = x.take m'.toNat) (hnm : n ≤ m) :
    Does K ρ s vm (subTail u x n m) (Lang.slice x n m') := by
  unfold subTail Lang.slice
  by_cases hn : n < 0
  · rw [if_pos hn, if_pos hn]
    trivial
  · rw [if_neg hn, if_neg hn, ← hm]
    have : (x.drop n.toNat).take (m - n).toNat = (x.take m.toNat).drop n.toNat := by
      rw [List.drop_take]
      congr 1
      omega
    rw [this]
    exact c.ret_str h hz fun b hb => hx b (List.mem_of_mem_take (List.mem_of_mem_drop hb))

/-- The end of the meaning of `string.sub` with three arguments. -/
def subEnd (z : Obj) (x : Bytes) (n : Int) : Ans :=
  match z with
  | .int m => if m < n then .val .nil else Lang.slice x n m
  | _ => .err .type

/-- The end of `string.sub` in the machine. -/
def subThird (k : Int) (vm : VM) (x : Bytes) (n : Int) : Res VM :=
  if k = 3 then do
    let vm ← lload vm 3
    let o ← peek vm 1
    match o with
    | .int m =>
      if m < n then ret1 (pushNil vm)
      else subTail vm x n (if m ≥ intOfU32 (x.length % 4294967296) then intOfU32 (x.length % 4294967296) else m)
    | _ => pure (setErr vm .type)
  else subTail vm x n (intOfU32 (x.length % 4294967296))

theorem sub_does (c : Call K ρ s vm f vals) : Does K ρ s vm (VM.strSub vm) (Lang.strSub vals) := by
  unfold VM.strSub
  rw [c.lnum, Res.ok_bind]
  have two : ∀ v w, vals[0]? = some v → vals[1]? = some w → (vals.length : Int) = 2 ∨ (vals.length : Int) = 3 → ∀ (k : VM → Bytes → Int → Res VM) (m : Bytes → Int → Ans),
      (∀ (x : Bytes) (n : Int) (a b : Nat), Obj.CStr x → x.length < 2147483648 → n < x.length → Inner vm (VM.pushAddr (VM.pushAddr vm a) b) → Does K ρ s vm (k (VM.pushAddr (VM.pushAddr vm a) b) x n) (m x n)) →
      Does K ρ s vm (do
        let vm ← lload vm 1
        let o ← peek vm 1
        match o with
        | .str _ s =>
          let ls := intOfU32 ((cstr s).length % 4294967296)
          let vm ← lload vm 2
          let o ← peek vm 1
          match o with
          | .int n =>
            if n ≥ ls then ret1 (pushNil vm)
            else k vm (cstr s) n
          | _ => pure (setErr vm .type)
        | _ => pure (setErr vm .type))
      (match v with
        | .str _ s =>
          if Lang.short s then
            match w with
            | .int n => if n ≥ s.length then .val .nil else m s n
            | _ => .err .type
          else .odd
        | _ => .err .type) := by
    intro v w hv hw _ k m hk
    obtain ⟨a, d, h1, h2, h3, h4, h5, _, _⟩ := c.load (Inner.refl c.core.inv) (k := 0) hv
    obtain ⟨b, e, g1, g2, g3, g4, g5, _, _⟩ := c.load h4 (k := 1) hw
    rw [h3, Res.ok_bind, h5, Res.ok_bind]
    cases v with
    | str j x =>
      obtain ⟨_, hx, _, e1⟩ := h2
      rw [e1]
      simp only [Lang.short, decide_eq_true_eq]
      by_cases hl : x.length < 2147483648
      · rw [if_pos hl, g3, Res.ok_bind, g5, Res.ok_bind, cstr_of hx, short_len hl]
        cases w with
        | int n =>
          rw [show objOf b e = _ from g2]
          simp only
          by_cases hn : n ≥ x.length
          · rw [if_pos hn, if_pos hn]
            exact c.ret_nil g4
          · rw [if_neg hn, if_neg hn]
            exact hk x n a b hx hl (by omega) g4
        | tab l => obtain ⟨_, _, e⟩ := g2; rw [e]; exact does_err
        | clo l => obtain ⟨_, _, e⟩ := g2; rw [e]; exact does_err
        | str j x => obtain ⟨_, _, _, e⟩ := g2; rw [e]; exact does_err
        | nil => rw [show objOf b e = _ from g2]; exact does_err
        | flt v => rw [show objOf b e = _ from g2]; exact does_err
        | user v => rw [show objOf b e = _ from g2]; exact does_err
      · rw [if_neg hl]
        trivial
    | tab l => obtain ⟨_, _, e⟩ := h2; rw [e]; exact does_err
    | clo l => obtain ⟨_, _, e⟩ := h2; rw [e]; exact does_err
    | nil => rw [show objOf a d = _ from h2]; exact does_err
    | int v => rw [show objOf a d = _ from h2]; exact does_err
    | flt v => rw [show objOf a d = _ from h2]; exact does_err
    | user v => rw [show objOf a d = _ from h2]; exact does_err
  match vals, c, two with
  | [], c, _ => exact does_err
  | [v], c, _ => exact does_err
  | [v, w], c, two =>
    rw [if_neg (by simp)]
    refine two v w rfl rfl (.inl rfl) (subThird 2) (fun s n => Lang.slice s n s.length) fun x n a b hx hl hn h => ?_
    unfold subThird
    rw [if_neg (by omega), short_len hl]
    exact sub_tail c h rfl hx n _ _ rfl (by omega)
  | [v, w, z], c, two =>
    rw [if_neg (by simp)]
    refine two v w rfl rfl (.inr rfl) (subThird 3) (subEnd z) fun x n a b hx hl hn h => ?_
    unfold subThird
    rw [if_pos rfl, short_len hl]
    obtain ⟨a', d, h1, h2, h3, h4, h5, _, _⟩ := c.load h (k := 2) (v := z) rfl
    rw [h3, Res.ok_bind, h5, Res.ok_bind]
    cases z with
    | int m =>
      rw [show objOf a' d = _ from h2]
      simp only [subEnd]
      by_cases hm : m < n
      · rw [if_pos hm, if_pos hm]
        exact c.ret_nil h4
      · rw [if_neg hm, if_neg hm]
        refine sub_tail c h4 rfl hx n _ _ ?_ (by split <;> omega)
        split
        · rw [List.take_of_length_le (by omega), List.take_of_length_le (by omega)]
        · rfl
    | tab l => obtain ⟨_, _, e⟩ := h2; rw [e]; exact does_err
    | clo l => obtain ⟨_, _, e⟩ := h2; rw [e]; exact does_err
    | str j x => obtain ⟨_, _, _, e⟩ := h2; rw [e]; exact does_err
    | nil => rw [show objOf a' d = _ from h2]; exact does_err
    | flt v => rw [show objOf a' d = _ from h2]; exact does_err
    | user v => rw [show objOf a' d = _ from h2]; exact does_err
  | v :: w :: z :: y :: vs, c, _ =>
    rw [if_pos (by simp only [List.length_cons, Nat.cast_add, Nat.cast_one]; omega)]
    exact does_err

theorem texts_none {v : Obj} {vs : List Obj} (h : ∀ j x, v ≠ .str j x) : Lang.texts (v :: vs) = none := by
  cases v with
  | str j x => exact absurd rfl (h j x)
  | _ => rfl

/-- Loading the arguments of `string.concat`. -/
theorem concat_load (c : Call K ρ s vm f vals) (k : VM → Res VM) : ∀ (n j : Nat) (u : VM), Inner vm u → j + n = vals.length →
    match Lang.texts (vals.drop j) with
    | some ss => ∃ u' as, concatLoad n (j + 1) u k = k u' ∧ Inner vm u' ∧ u'.strings = u.strings ∧ u'.stack = as.reverse ++ u.stack ∧
        List.Forall₂ (fun a x => ∃ sid, Holds vm.heap a (.atom (.str sid x)) ∧ Obj.CStr x) as ss
    | none => ∃ w, concatLoad n (j + 1) u k = pure (setErr w .type) := by
  intro n
  induction n with
  | zero =>
    intro j u h hj
    rw [List.drop_eq_nil_of_le (by omega)]
    exact ⟨u, [], rfl, h, rfl, rfl, .nil⟩
  | succ n ih =>
    intro j u h hj
    have hjl : j < vals.length := by omega
    obtain ⟨a, d, h1, h2, h3, h4, h5, _, _⟩ := c.load h (k := j) (List.getElem?_eq_getElem hjl)
    have hd : vals.drop j = vals[j] :: vals.drop (j + 1) := List.drop_eq_getElem_cons hjl
    rw [hd]
    have he : concatLoad (n + 1) (j + 1) u k = (match objOf a d with
      | .str _ _ => concatLoad n (j + 1 + 1) (VM.pushAddr u a) k
      | _ => pure (setErr (VM.pushAddr u a) .type)) := by
      rw [concatLoad, h3, Res.ok_bind, h5, Res.ok_bind]
      cases objOf a d <;> rfl
    generalize vals[j] = v at h2
    have ih := ih (j + 1) (VM.pushAddr u a) h4 (by omega)
    cases v with
    | str i x =>
      obtain ⟨_, hx, sid, e⟩ := h2
      rw [e] at he
      simp only [Lang.texts] at ih ⊢
      cases ht : Lang.texts (vals.drop (j + 1)) with
      | none =>
        rw [ht] at ih
        obtain ⟨w, hw⟩ := ih
        exact ⟨w, he.trans hw⟩
      | some ss =>
        rw [ht] at ih
        obtain ⟨u', as, k1, k2, k3, k4, k5⟩ := ih
        refine ⟨u', a :: as, he.trans k1, k2, k3, ?_, .cons ⟨sid, ?_, hx⟩ k5⟩
        · rw [k4]
          simp [VM.pushAddr]
        · cases d with
          | atom o => cases e; exact h1
          | tab t => cases e
          | clo p q r => cases e
    | tab l => obtain ⟨_, _, e⟩ := h2; rw [e] at he; exact ⟨_, he⟩
    | clo l => obtain ⟨_, _, e⟩ := h2; rw [e] at he; exact ⟨_, he⟩
    | nil => rw [show objOf a d = _ from h2] at he; exact ⟨_, he⟩
    | int v => rw [show objOf a d = _ from h2] at he; exact ⟨_, he⟩
    | flt v => rw [show objOf a d = _ from h2] at he; exact ⟨_, he⟩
    | user v => rw [show objOf a d = _ from h2] at he; exact ⟨_, he⟩

theorem concat_does (c : Call K ρ s vm f vals) : Does K ρ s vm (VM.strConcat vm) (Lang.strConcat vals) := by
  unfold VM.strConcat Lang.strConcat
  rw [c.lnum, Res.ok_bind]
  by_cases hl : vals.length < 2
  · rw [if_pos (by omega), if_pos hl]
    exact does_err
  · rw [if_neg (by omega), if_neg hl]
    simp only [Int.toNat_natCast]
    have := concat_load c (fun vm => do
      let s ← concatJoin vm vals.length
      if s.length + 1 ≥ 4294967296 then .ub
      else do
        let vm ← pushStr vm s
        ret1 vm) vals.length 0 vm (Inner.refl c.core.inv) (by omega)
    rw [List.drop_zero] at this
    cases ht : Lang.texts vals with
    | none =>
      rw [ht] at this
      obtain ⟨w, hw⟩ := this
      rw [hw]
      exact does_err
    | some ss =>
      rw [ht] at this
      obtain ⟨u, as, h1, h2, h3, h4, h5⟩ := this
      simp only [Lang.short, decide_eq_true_eq]
      by_cases hs : ss.flatten.length < 2147483648
      · rw [if_pos hs, h1]
        have hlen : ss.length = vals.length := by
          clear h1 h5 hs h4 c hl
          induction vals generalizing ss with
          | nil => cases ht; rfl
          | cons v vs ih =>
            cases v with
            | str j x =>
              simp only [Lang.texts, Option.map_eq_some_iff] at ht
              obtain ⟨ss', hs', rfl⟩ := ht
              rw [List.length_cons, List.length_cons, ih _ hs']
            | _ => cases ht
        have hc : ∀ x ∈ ss, Obj.CStr x := by
          intro x hx
          obtain ⟨i, hi, rfl⟩ := List.mem_iff_getElem.mp hx
          obtain ⟨_, _, h⟩ := List.Forall₂.get h5 (by rw [h5.length_eq]; exact hi) hi
          exact h
        have hj := concatJoin_ok (vm := u) ss (fun x hx => ⟨fun h0 => hc x hx 0 h0 rfl, by
            have : x.length ≤ ss.flatten.length := by
              rw [List.length_flatten]
              exact List.le_sum_of_mem (List.mem_map_of_mem hx)
            omega⟩) (by
          intro i x hx
          have hr : List.Forall₂ (fun a x => ∃ sid, Holds vm.heap a (.atom (.str sid x)) ∧ Obj.CStr x) as.reverse ss.reverse := List.rel_reverse h5
          obtain ⟨hi, rfl⟩ := List.getElem?_eq_some_iff.mp hx
          have hi' : i < as.reverse.length := by rw [hr.length_eq]; exact hi
          obtain ⟨sid, hh, _⟩ := List.Forall₂.get hr hi' hi
          refine ⟨sid, as.reverse[i], ?_, h2.old _ _ hh⟩
          rw [h4, List.getElem?_append_left hi']
          exact List.getElem?_eq_getElem hi')
        rw [hlen] at hj
        simp only [hj, Res.ok_bind]
        rw [if_neg (by omega)]
        refine c.ret_str h2 h3 ?_
        intro b hb
        obtain ⟨x, hx, hbx⟩ := List.mem_flatten.mp hb
        exact hc x hx b hbx
      · rw [if_neg hs]
        trivial

theorem pick_does (c : Call K ρ s vm f vals) {E : Env} {first : Int → Bool} {m : Obj → Obj → Ans}
    (h : ∀ x y x' y', Img ρ x x' → Img ρ y y' → (∃ v, Obj.cmp E.sc x' y' = .ok v ∧ m x y = .val (if first v then x else y)) ∨ m x y = .odd) :
    Does K ρ s vm (mathPick E first vm) (match vals with | [x, y] => m x y | _ => .err .lnum) := by
  unfold mathPick
  rw [c.lnum, Res.ok_bind]
  match vals, c with
  | [], c => exact does_err
  | [v], c => exact does_err
  | [v, w], c =>
    obtain ⟨a, d, h1, h2, h3, h4, h5, _, h7⟩ := c.load (Inner.refl c.core.inv) (k := 0) (v := v) rfl
    obtain ⟨b, e, g1, g2, g3, g4, g5, _, g7⟩ := c.load h4 (k := 1) (v := w) rfl
    rw [if_neg (by simp)]
    simp only [h3, h5, h7, g3, g5, g7, Res.ok_bind]
    rcases h v w _ _ h2 g2 with ⟨r, k1, k2⟩ | k
    · rw [k1, Res.ok_bind, k2]
      by_cases hr : first r = true
      · rw [if_pos hr, if_pos hr]
        exact c.ret (g4.pushAddr h1) rfl ⟨d, g4.old _ _ h1, h2⟩
      · rw [if_neg hr, if_neg hr]
        exact c.ret (g4.pushAddr g1) rfl ⟨e, g4.old _ _ g1, g2⟩
    · rw [k]
      trivial
  | v :: w :: z :: vs, c =>
    rw [if_pos (by simp only [List.length_cons, Nat.cast_add, Nat.cast_one]; omega)]
    exact does_err

theorem below_num {x y x' y' : Obj} (hx : Img ρ x x') (hy : Img ρ y y') {b : Bool} (h : Lang.below x y = some b) : x' = x ∧ y' = y := by
  cases x <;> cases y <;> first | (cases h; done) | exact ⟨hx, hy⟩

theorem ltF_asymm {a b : Flt} (h : Obj.ltF b a = true) : Obj.ltF a b = false := by
  cases a <;> cases b <;> simp_all [Obj.ltF]
  exact le_of_lt h

theorem cmp_below {sc : Bytes → Bytes → Int} {x y : Obj} {b : Bool} (h : Lang.below x y = some b) :
    ∃ b', Lang.below y x = some b' ∧ Obj.cmp sc x y = .ok (if b then -1 else if b' then 1 else 0) ∧ (b' = true → b = false) := by
  cases x <;> cases y <;> first | (cases h; done) | (cases h; skip)
  · refine ⟨_, rfl, ?_, ?_⟩
    · simp [Obj.cmp, Obj.cmpI]
    · intro hb
      simp only [decide_eq_true_eq, decide_eq_false_iff_not] at hb ⊢
      omega
  · exact ⟨_, rfl, rfl, fun hb => ltF_asymm hb⟩
  · exact ⟨_, rfl, rfl, fun hb => ltF_asymm hb⟩
  · exact ⟨_, rfl, rfl, fun hb => ltF_asymm hb⟩

theorem min_does (c : Call K ρ s vm f vals) (E : Env) : Does K ρ s vm (mathMin E vm) (Lang.mMin vals) := by
  have := pick_does c (E := E) (first := fun c => decide (c ≠ 1)) (m := fun x y => match Lang.below x y, Lang.below y x with
    | some _, some true => .val y
    | some _, some false => .val x
    | _, _ => .odd) (by
      intro x y x' y' hx hy
      cases hb : Lang.below x y with
      | none => exact .inr rfl
      | some b =>
        obtain ⟨rfl, rfl⟩ := below_num hx hy hb
        obtain ⟨b', h1, h2, h3⟩ := cmp_below (sc := E.sc) hb
        refine .inl ⟨_, h2, ?_⟩
        rw [h1]
        cases b <;> cases b' <;> simp_all)
  cases vals with
  | nil => exact this
  | cons x vals =>
    cases vals with
    | nil => exact this
    | cons y vals => cases vals <;> exact this

theorem max_does (c : Call K ρ s vm f vals) (E : Env) : Does K ρ s vm (mathMax E vm) (Lang.mMax vals) := by
  have := pick_does c (E := E) (first := fun c => decide (c ≥ 0)) (m := fun x y => match Lang.below x y with
    | some true => .val y
    | some false => .val x
    | none => .odd) (by
      intro x y x' y' hx hy
      cases hb : Lang.below x y with
      | none => exact .inr rfl
      | some b =>
        obtain ⟨rfl, rfl⟩ := below_num hx hy hb
        obtain ⟨b', h1, h2, h3⟩ := cmp_below (sc := E.sc) hb
        refine .inl ⟨_, h2, ?_⟩
        cases b <;> cases b' <;> simp_all)
  cases vals with
  | nil => exact this
  | cons x vals =>
    cases vals with
    | nil => exact this
    | cons y vals => cases vals <;> exact this

/-! ### `size` and the whole library -/

/-- The result of a function by its meaning in the state. -/
def DoesEv (K : Ctx) (ρ : List Nat) (s : St) (vm : VM) (r : Res VM) (x : Lang.Ev Obj) : Prop :=
  match x s with
  | .ok v s' => ∃ vm', r = .ok vm' ∧ RetOf K vm ρ v s' vm'
  | .err e => ∃ vm', r = .ok vm' ∧ vm'.state = .error ∧ vm'.error = e
  | _ => True

theorem Does.ev {r : Res VM} {x : Ans} (h : Does K ρ s vm r x) : DoesEv K ρ s vm r x.ev := by
  cases x <;> exact h

/-- The meaning of `size` in a state. -/
def sizeAns (s : St) : Obj → Ans
  | .tab l =>
    match s.store[l]? with
    | some (.tab es) => if es.length < 2147483648 then .val (.int es.length) else .odd
    | _ => .odd
  | _ => .err .type

theorem size_ans (c : Call K ρ s vm f vals) : Does K ρ s vm (objSize vm) (fun1 (sizeAns s) vals) := by
  refine c.one fun v a d hv h1 h2 h3 _ h5 => ?_
  rw [h5, Res.ok_bind]
  by_cases ht : ∃ l, v = .tab l
  · obtain ⟨l, rfl⟩ := ht
    obtain ⟨a', hl, e⟩ := h2
    cases d with
    | atom o =>
      have := c.core.inv.cells _ _ h1
      cases e
      exact this.elim
    | clo p q r => cases e
    | tab t =>
      cases e
      simp only [sizeAns]
      cases hs : s.store[l]? with
      | none => trivial
      | some th =>
        have hk := c.core.things l a th _ hl hs h1
        cases th with
        | fn ps b env => trivial
        | host n env => trivial
        | tab es =>
          obtain ⟨_, ⟨⟩, hk⟩ := hk
          obtain ⟨ls, k1, k2⟩ := hk.entries
          have hlen : (Dict.entries t).length = es.length := by rw [k1.length_eq, k2.length_eq]
          simp only
          by_cases he : es.length < 2147483648
          · rw [if_pos he, hk.wf.size_eq, hlen]
            rw [show es.length % U32 % 4294967296 = es.length by unfold U32; omega]
            rw [show intOfU32 es.length = es.length by unfold intOfU32; rw [if_pos he]]
            exact c.ret_int (h3.popN 1) (by unfold I32; omega)
          · rw [if_neg he]
            trivial
  · have hne : ∀ l, v ≠ .tab l := fun l e => ht ⟨l, e⟩
    have hm : sizeAns s v = .err .type := by
      cases v with
      | tab l => exact absurd rfl (hne l)
      | _ => rfl
    rw [hm]
    cases d with
    | tab t =>
      exfalso
      cases v with
      | tab l => exact hne l rfl
      | clo l => obtain ⟨_, _, e⟩ := h2; cases e
      | str j x => obtain ⟨_, _, _, e⟩ := h2; cases e
      | _ => cases h2
    | _ => exact does_err

theorem size_does (c : Call K ρ s vm f vals) : DoesEv K ρ s vm (objSize vm) (Lang.libByName ("", "size") vals) := by
  have h := size_ans c
  match vals, c, h with
  | [], c, h => exact h.ev
  | v :: w :: vs, c, h => exact h.ev
  | [v], c, h =>
    have h : Does K ρ s vm (objSize vm) (sizeAns s v) := h
    show DoesEv K ρ s vm _ (Lang.libSize v)
    unfold DoesEv
    cases v with
    | tab l =>
      simp only [sizeAns] at h
      cases hs : s.store[l]? with
      | none =>
        rw [show Lang.libSize (.tab l) s = .odd from bind_odd (look_none hs)]
        trivial
      | some th =>
        rw [show Lang.libSize (.tab l) s = _ from bind_eq (look_some hs)]
        rw [hs] at h
        cases th with
        | fn ps b env => trivial
        | host n env => trivial
        | tab es =>
          simp only at h ⊢
          by_cases he : es.length < 2147483648
          · rw [if_pos he] at h ⊢
            exact h
          · rw [if_neg he]
            trivial
    | _ => exact h

theorem Call.inner (c : Call K ρ s vm f vals) {u : VM} (h : Inner vm u) : Core K ρ s u := by
  have hs := h.same
  simp only [Prod.mk.injEq] at hs
  obtain ⟨s1, s2, s3, s4, s5, s6⟩ := hs
  exact c.core.ext h.inv (s1.trans c.core.ready) (by show (u.code, u.nfuns) = _; rw [s2, s3]) h.prot h.ext s4 rfl rfl

/-- Reading a table in a function. -/
theorem Call.tget (c : Call K ρ s vm f vals) (law : Obj.StrcmpLaw K.E.sc) {u : VM} (h : Inner vm u) {a b : Nat} {st : List Nat} {k t : Obj} (hst : u.stack = a :: b :: st)
    (ra : Rep ρ u.heap k a) (rb : Rep ρ u.heap t b) :
    match Lang.tabGet t k s with
    | .ok v s' => s' = s ∧ ∃ u' e, VM.tget K.E u = .ok u' ∧ Inner vm u' ∧ u'.stack = e :: st ∧ Rep ρ u'.heap v e
    | .err e => e = .type ∧ VM.tget K.E u = .ok (setErr u .type)
    | .odd => True
    | _ => False := by
  obtain ⟨x, h1, h2⟩ := ra
  obtain ⟨y, h3, h4⟩ := rb
  have key := tget_core law (c.inner h) hst h1 h2 h3 h4
  cases ht : Lang.tabGet t k s with
  | ok v s' =>
    rw [ht] at key
    obtain ⟨rfl, ⟨e, k1, k2⟩ | ⟨rfl, k1⟩⟩ := key
    · refine ⟨rfl, _, e, k1, ?_, rfl, k2⟩
      have hp : popN u 2 = { u with stack := st } := by unfold VM.popN; rw [hst]; rfl
      have iv := (h.inv.popN 2).pushAddr (a := e) k2.live
      rw [hp] at iv
      exact { h with inv := iv }
    · refine ⟨rfl, _, _, k1, ?_, rfl, ?_⟩
      · have hp : popN u 2 = { u with stack := st } := by unfold VM.popN; rw [hst]; rfl
        have := (h.popN 2).push (c := .atom .nil) trivial
        rw [hp] at this
        exact this
      · exact ⟨_, holds_new h.inv.heap _, rfl⟩
  | err e => rw [ht] at key; exact key
  | odd => trivial
  | ret v s' => rw [ht] at key; exact key
  | time => rw [ht] at key; exact key

/-- The value of `self` in a function. -/
def HasSelf (ρ : List Nat) (vm : VM) (f : Frame) (self : Obj) : Prop := ∃ a as, f.syms = a :: as ∧ Rep ρ vm.heap self a

/-- The field `poses` of `self`. -/
theorem Call.poses (c : Call K ρ s vm f vals) (law : Obj.StrcmpLaw K.E.sc) {self : Obj} (hself : HasSelf ρ vm f self) :
    match Lang.tabGet self (.str 0 (ascii "poses")) s with
    | .ok v s' => s' = s ∧ ∃ u e st, nbrPoses K.E vm = .ok u ∧ Inner vm u ∧ u.stack = e :: st ∧ Rep ρ u.heap v e
    | .err e => e = .type ∧ ∃ u a b st x, nbrPoses K.E vm = .ok (setErr u .type) ∧ Inner vm u ∧ u.stack = a :: b :: st ∧ Holds u.heap a (.atom (.str x (ascii "poses")))
    | .odd => True
    | _ => False := by
  obtain ⟨sa, as', hsy, ra⟩ := hself
  obtain ⟨fs, _, _, hf, _, _⟩ := c.args
  obtain ⟨d, h1, h2⟩ := id ra
  have i0 := Inner.refl c.core.inv
  have e0 : lload vm 0 = .ok (VM.pushAddr vm sa) := lload_at hf (by rw [hsy]; rfl)
  have i1 := i0.pushAddr h1
  obtain ⟨sm', id, e1, e2, e3, e4, e5, e6⟩ := register_inv i1.inv.strings (show (VM.pushAddr vm sa).strings.id2str.length ≤ 65533 from c.room) (ascii "poses") true
  have hp := register_prot i1.inv.strings (show (VM.pushAddr vm sa).strings.id2str.length ≤ 65533 from c.room) (ascii "poses") true e1
  have iv := i1.inv.setStrings e2 e6
  have h2' : Inner vm { VM.pushAddr vm sa with strings := sm' } :=
    { i1 with inv := iv, prot := fun x j hx => hp x j (i1.prot x j hx), room := fun hr => by show sm'.id2str.length ≤ _; exact le_trans e3 (by show vm.strings.id2str.length + 1 ≤ _; omega) }
  have i3 := h2'.push (c := .atom (.str id (ascii "poses"))) e4
  have e7 : pushName "poses" (VM.pushAddr vm sa) = .ok (VM.push { VM.pushAddr vm sa with strings := sm' } (.atom (.str id (ascii "poses")))) := by
    unfold pushName pushS
    rw [e1]
    simp only [Res.ok_bind, Nat.mod_eq_of_lt e5, e4]
    rfl
  have e8 : nbrPoses K.E vm = VM.tget K.E (VM.push { VM.pushAddr vm sa with strings := sm' } (.atom (.str id (ascii "poses")))) := by
    unfold nbrPoses
    rw [e0, Res.ok_bind, e7, Res.ok_bind]
  have rk : Rep ρ (VM.push { VM.pushAddr vm sa with strings := sm' } (.atom (.str id (ascii "poses")))).heap (.str 0 (ascii "poses")) vm.heap.brk :=
    ⟨_, holds_new h2'.inv.heap _, rfl, by decide +kernel, id, rfl⟩
  have rt : Rep ρ (VM.push { VM.pushAddr vm sa with strings := sm' } (.atom (.str id (ascii "poses")))).heap self sa := ⟨d, i3.old _ _ h1, h2⟩
  have key := c.tget law i3 (a := vm.heap.brk) (b := sa) (st := vm.stack) rfl rk rt
  rw [e8]
  cases ht : Lang.tabGet self (.str 0 (ascii "poses")) s with
  | ok v s' =>
    rw [ht] at key
    obtain ⟨k1, u, e, k2, k3, k4, k5⟩ := key
    exact ⟨k1, u, e, _, k2, k3, k4, k5⟩
  | err e =>
    rw [ht] at key
    exact ⟨key.1, _, _, _, _, id, key.2, i3, rfl, holds_new h2'.inv.heap _⟩
  | odd => trivial
  | ret v s' => rw [ht] at key; exact key
  | time => rw [ht] at key; exact key

/-- `ret1` after an error. -/
theorem Call.ret_err (c : Call K ρ s vm f vals) {u : VM} (h : Inner vm u) {e : Err} {a : Nat} {l : List Nat} (hst : u.stack = a :: l) {w : VM}
    (hw : w = { setErr u e with stack := w.stack }) (hws : ∃ b m, w.stack = b :: m) : ∃ vm', ret1 w = .ok vm' ∧ vm'.state = .error ∧ vm'.error = e := by
  obtain ⟨fs, self, as, hf, _, _⟩ := c.args
  obtain ⟨ra, S, rs, m, hr, hm, hlt⟩ := c.back
  have hs := h.same
  simp only [Prod.mk.injEq] at hs
  obtain ⟨s1, s2, s3, s4, s5, s6⟩ := hs
  obtain ⟨b, ms, hws⟩ := hws
  rw [hw] at hws ⊢
  exact ⟨_, ret1_eq (s5.trans hf) (s6.trans hr) (h.old _ _ hm) hws, rfl, rfl⟩

theorem bindL_err {α β : Type} {x : Lang.Ev α} {f : α → Lang.Ev β} {e : VM.Err} (h : x s = .err e) : (x >>= f) s = .err e := by
  show (match x s with | .ok a s => f a s | .ret v s => .ret v s | .err e => .err e | .odd => .odd | .time => .time) = _
  rw [h]

theorem nbrGet_does (c : Call K ρ s vm f vals) (law : Obj.StrcmpLaw K.E.sc) {self : Obj} (hself : HasSelf ρ vm f self) : DoesEv K ρ s vm (nbrGet K.E vm) (Lang.nbrGet self vals) := by
  unfold nbrGet
  rw [c.lnum, Res.ok_bind]
  match vals, c with
  | [], c => exact ⟨_, rfl, rfl, rfl⟩
  | v :: w :: vs, c =>
    rw [if_pos (by simp only [List.length_cons, Nat.cast_add, Nat.cast_one]; omega)]
    exact ⟨_, rfl, rfl, rfl⟩
  | [v], c =>
    rw [if_neg (by simp)]
    have key := c.poses law hself
    unfold DoesEv
    cases ht : Lang.tabGet self (.str 0 (ascii "poses")) s with
    | ok p s' =>
      rw [ht] at key
      obtain ⟨rfl, u, e, st, k1, k2, k3, d, k4, k5⟩ := key
      have hm : Lang.nbrGet self [v] s' = (match (generalizing := false) p with | .nil => pure .nil | p => Lang.tabGet p v : Lang.Ev Obj) s' := bind_eq ht
      have hpk : peek u 1 = .ok (objOf e d) := by
        obtain ⟨_, g1, _, _, _, g5⟩ := VM.At.peekCell (vm := u) (i := 0) (c := d) ⟨e, by rw [k3]; rfl, k4⟩
        rw [k3] at g1
        cases g1
        exact g5
      rw [k1, Res.ok_bind, hpk, Res.ok_bind, hm]
      obtain ⟨a, d', q1, q2, q3, q4, _⟩ := c.load k2 (k := 0) (v := v) rfl
      by_cases hp : p = .nil
      · subst hp
        rw [show objOf e d = .nil from k5]
        exact c.ret_nil k2
      · have hgo : DoesEv K ρ s' vm (lload u 1 >>= fun vm => VM.tget K.E vm >>= fun vm => ret1 vm) (Lang.tabGet p v) := by
          rw [q3, Res.ok_bind]
          have key2 := c.tget law q4 (a := a) (b := e) (st := st) (by show a :: u.stack = _; rw [k3]) ⟨d', k2.old _ _ q1, q2⟩ ⟨d, k4, k5⟩
          unfold DoesEv
          cases ht2 : Lang.tabGet p v s' with
          | ok w s2 =>
            rw [ht2] at key2
            obtain ⟨rfl, u', e', j1, j2, j3, j4⟩ := key2
            rw [j1, Res.ok_bind]
            exact c.ret j2 j3 j4
          | err er =>
            rw [ht2] at key2
            obtain ⟨rfl, j1⟩ := key2
            rw [j1, Res.ok_bind]
            exact c.ret_err q4 rfl rfl ⟨_, _, rfl⟩
          | _ => trivial
        unfold DoesEv at hgo
        cases p with
        | nil => exact absurd rfl hp
        | tab l => obtain ⟨_, _, e⟩ := k5; rw [e]; exact hgo
        | clo l => obtain ⟨_, _, e⟩ := k5; rw [e]; exact hgo
        | str j x => obtain ⟨_, _, _, e⟩ := k5; rw [e]; exact hgo
        | int v => rw [show objOf e d = _ from k5]; exact hgo
        | flt v => rw [show objOf e d = _ from k5]; exact hgo
        | user v => rw [show objOf e d = _ from k5]; exact hgo
    | err er =>
      rw [ht] at key
      obtain ⟨rfl, u, a, b, st, x, k1, k2, k3, k4⟩ := key
      have hm : Lang.nbrGet self [v] s = .err .type := bindL_err ht
      rw [hm, k1, Res.ok_bind]
      obtain ⟨g0, g1, _, _, g4, g5⟩ := VM.At.peekCell (vm := setErr u .type) (i := 0) (c := .atom (.str x (ascii "poses"))) ⟨a, by show u.stack[0]? = _; rw [k3]; rfl, k4⟩
      simp only [Nat.zero_add, Nat.cast_one] at g5
      rw [g5, Res.ok_bind]
      obtain ⟨a', d', q1, q2, q3, q4, _⟩ := c.load k2 (k := 0) (v := v) rfl
      have q3' : lload (setErr u .type) 1 = .ok (VM.pushAddr (setErr u .type) a') := by
        unfold lload at q3 ⊢
        show (match u.frames with | [] => _ | f :: _ => _) = _
        cases hfr : u.frames with
        | nil => rw [hfr] at q3; cases q3
        | cons fr frs =>
          rw [hfr] at q3
          simp only at q3 ⊢
          split at q3
          · have := congrArg (fun r : Res VM => match r with | .ok v => v.stack.length | _ => 0) q3
            simp [setErr, VM.pushAddr] at this
          · rename_i hlt
            rw [if_neg hlt]
            split at q3
            · rename_i a2 ha2
              have := congrArg (fun r : Res VM => match r with | .ok v => v.stack | _ => []) q3
              simp [VM.pushAddr] at this
              subst this
              rw [ha2]
              rfl
            · cases q3
      simp only [objOf]
      rw [q3', Res.ok_bind]
      have ht3 : VM.tget K.E (VM.pushAddr (setErr u .type) a') = .ok (setErr (VM.pushAddr (setErr u .type) a') .type) := by
        unfold VM.tget need
        have : peekCell (VM.pushAddr (setErr u .type) a') 2 = .ok (.atom (.str x (ascii "poses"))) := by
          obtain ⟨_, _, _, _, g4, _⟩ := VM.At.peekCell (vm := VM.pushAddr (setErr u .type) a') (i := 1) (c := .atom (.str x (ascii "poses"))) ⟨a, by show (a' :: u.stack)[1]? = _; rw [k3]; rfl, k4⟩
          exact g4
        rw [if_neg (by show ¬ (((a' :: u.stack).length : Int) - 2 < 0); rw [k3]; simp only [List.length_cons]; omega), this, Res.ok_bind]
        rfl
      rw [ht3, Res.ok_bind]
      exact c.ret_err k2 k3 rfl ⟨_, _, rfl⟩
    | ret v s' => rw [ht] at key; exact key.elim
    | odd =>
      rw [show Lang.nbrGet self [v] s = .odd from bind_odd ht]
      trivial
    | time => rw [ht] at key; exact key.elim

theorem nbrCount_does (c : Call K ρ s vm f vals) (law : Obj.StrcmpLaw K.E.sc) {self : Obj} (hself : HasSelf ρ vm f self) : DoesEv K ρ s vm (nbrCount K.E vm) (Lang.nbrCount self vals) := by
  unfold nbrCount
  rw [c.lnum, Res.ok_bind]
  match vals, c with
  | v :: vs, c =>
    rw [if_pos (by simp only [List.length_cons, Nat.cast_add, Nat.cast_one]; omega)]
    exact ⟨_, rfl, rfl, rfl⟩
  | [], c =>
    rw [if_neg (by simp)]
    have key := c.poses law hself
    unfold DoesEv
    by_cases hl : ∃ l, self = .tab l
    swap
    · have : Lang.nbrCount self [] s = .odd := by
        cases self with
        | tab l => exact absurd ⟨l, rfl⟩ hl
        | _ => rfl
      rw [this]
      trivial
    obtain ⟨l, rfl⟩ := hl
    cases ht : Lang.tabGet (.tab l) (.str 0 (ascii "poses")) s with
    | ok p s' =>
      rw [ht] at key
      obtain ⟨rfl, u, e, st, k1, k2, k3, d, k4, k5⟩ := key
      have hm : Lang.nbrCount (.tab l) [] s' = (match (generalizing := false) p with | .nil => pure (.int 0) | .tab m => Lang.libSize (.tab m) | _ => Lang.odd : Lang.Ev Obj) s' := bind_eq ht
      have hpk : peekCell u 1 = .ok d := by
        obtain ⟨_, _, _, _, g4, _⟩ := VM.At.peekCell (vm := u) (i := 0) (c := d) ⟨e, by rw [k3]; rfl, k4⟩
        exact g4
      rw [k1, Res.ok_bind, hpk, Res.ok_bind, hm]
      cases p with
      | nil =>
        have k5 : objOf e d = .nil := k5
        cases d with
        | atom o =>
          have k5 : o = .nil := k5
          subst k5
          exact c.ret_int k2 (n := 0) (by unfold I32; omega)
        | tab t => cases k5
        | clo x y z => cases k5
      | tab m =>
        obtain ⟨hρ, tb, rfl⟩ := tab_cell k2.inv k4 k5
        simp only
        cases hs : s'.store[m]? with
        | none =>
          rw [show Lang.libSize (.tab m) s' = .odd from bind_odd (look_none hs)]
          trivial
        | some th =>
          rw [show Lang.libSize (.tab m) s' = _ from bind_eq (look_some hs)]
          have hk := (c.inner k2).things m e th _ hρ hs k4
          cases th with
          | fn ps b env => trivial
          | host n env => trivial
          | tab es =>
            obtain ⟨_, ⟨⟩, hk⟩ := hk
            obtain ⟨ls, j1, j2⟩ := hk.entries
            have hlen : (Dict.entries tb).length = es.length := by rw [j1.length_eq, j2.length_eq]
            simp only
            by_cases he : es.length < 2147483648
            · rw [if_pos he, hk.wf.size_eq, hlen]
              rw [show es.length % U32 % 4294967296 = es.length by unfold U32; omega]
              rw [show intOfU32 es.length = es.length by unfold intOfU32; rw [if_pos he]]
              exact c.ret_int k2 (by unfold I32; omega)
            · rw [if_neg he]
              trivial
      | _ => trivial
    | err er =>
      rw [show Lang.nbrCount (.tab l) [] s = .err er from ?_]
      · rw [ht] at key
        exfalso
        have : Lang.tabGet (.tab l) (.str 0 (ascii "poses")) s ≠ .err er := by
          cases hs : s.store[l]? with
          | none => rw [show Lang.tabGet (.tab l) (.str 0 (ascii "poses")) s = .odd from bind_odd (look_none hs)]; simp
          | some th =>
            rw [show Lang.tabGet (.tab l) (.str 0 (ascii "poses")) s = _ from bind_eq (look_some hs)]
            cases th with
            | tab es =>
              simp only
              split <;> intro h <;> cases h
            | _ => intro h; cases h
        exact this ht
      · exact bindL_err ht
    | ret v s' => rw [ht] at key; exact key.elim
    | odd =>
      rw [show Lang.nbrCount (.tab l) [] s = .odd from bind_odd ht]
      trivial
    | time => rw [ht] at key; exact key.elim

/-- The numbers of the functions with a meaning. -/
def defined : List Nat := [0, 7, 11, 12, 13, 15, 20, 21, 22, 23, 24, 25, 26, 33, 34, 35, 36, 48, 49, 59, 60, 61, 62, 63]

theorem byName_odd {name : String × String} (h : ∀ n ∈ defined, Lang.libNames[n]? ≠ some name) (vs : List Obj) : Lang.libByName name vs = Lang.odd := by
  have e : ∀ n m, n ∈ defined → Lang.libNames[n]? = some m → m ≠ name := fun n m hn hm he => h n hn (he ▸ hm)
  unfold Lang.libByName
  split
  · exact absurd rfl (e 11 ("", "type") (by decide) (by decide +kernel))
  · exact absurd rfl (e 12 ("", "int") (by decide) (by decide +kernel))
  · exact absurd rfl (e 13 ("", "float") (by decide) (by decide +kernel))
  · exact absurd rfl (e 15 ("", "size") (by decide) (by decide +kernel))
  · exact absurd rfl (e 15 ("", "size") (by decide) (by decide +kernel))
  · exact absurd rfl (e 20 ("", "isnil") (by decide) (by decide +kernel))
  · exact absurd rfl (e 21 ("", "isint") (by decide) (by decide +kernel))
  · exact absurd rfl (e 22 ("", "isfloat") (by decide) (by decide +kernel))
  · exact absurd rfl (e 23 ("", "isstring") (by decide) (by decide +kernel))
  · exact absurd rfl (e 24 ("", "istable") (by decide) (by decide +kernel))
  · exact absurd rfl (e 25 ("", "isclosure") (by decide) (by decide +kernel))
  · exact absurd rfl (e 26 ("", "isuserdata") (by decide) (by decide +kernel))
  · exact absurd rfl (e 33 ("math", "abs") (by decide) (by decide +kernel))
  · exact absurd rfl (e 34 ("math", "floor") (by decide) (by decide +kernel))
  · exact absurd rfl (e 35 ("math", "ceil") (by decide) (by decide +kernel))
  · exact absurd rfl (e 36 ("math", "round") (by decide) (by decide +kernel))
  · exact absurd rfl (e 48 ("math", "min") (by decide) (by decide +kernel))
  · exact absurd rfl (e 49 ("math", "max") (by decide) (by decide +kernel))
  · exact absurd rfl (e 59 ("string", "length") (by decide) (by decide +kernel))
  · exact absurd rfl (e 60 ("string", "sub") (by decide) (by decide +kernel))
  · exact absurd rfl (e 61 ("string", "concat") (by decide) (by decide +kernel))
  · exact absurd rfl (e 62 ("string", "tostring") (by decide) (by decide +kernel))
  · exact absurd rfl (e 63 ("string", "toint") (by decide) (by decide +kernel))
  · rfl

/-- Functions without a meaning. -/
theorem std_odd {n : Nat} (h : n ∉ defined) (vs : List Obj) : Lang.stdLib n vs = Lang.odd := by
  unfold Lang.stdLib
  cases hm : Lang.libNames[n]? with
  | none => rfl
  | some name =>
    have hne : ∀ k ∈ defined, Lang.libNames[k]? ≠ some name := ?_
    · have e : ∀ n m, n ∈ defined → Lang.libNames[n]? = some m → m ≠ name := fun n m hn hm he => hne n hn (he ▸ hm)
      simp only
      unfold Lang.libWithSelf
      split
      · exact absurd rfl (e 0 ("neighbors", "get") (by decide) (by decide +kernel))
      · exact absurd rfl (e 7 ("neighbors", "count") (by decide) (by decide +kernel))
      · exact byName_odd hne _
    intro k hk he
    have : k = n := (List.getElem?_inj (List.getElem?_eq_some_iff.mp he).1 (show Lang.libNames.Nodup by decide +kernel)).mp (he.trans hm.symm)
    exact h (this ▸ hk)

/-- **The library does what its meaning says.** -/
theorem std_ok {E : Env} {other : CFuns} (hK : ∀ n vm, vm.strings.id2str.length ≤ 65533 → K.F n vm = stdFuns E other n vm) (hl : K.lib = Lang.stdLib) (ho : K.loose = true)
    (hKE : K.E = E) (law : Obj.StrcmpLaw E.sc) : LibOk K := by
  subst hKE
  intro n vs s vm ρ f fs ra S rs m hn hvs hcore hsc hf hrep hst hrest hra hm hroom
  have hroom := hroom ho
  rw [hl, hK n vm hroom]
  cases vs with
  | nil => exact absurd rfl hvs
  | cons self vals =>
    cases hsy : f.syms with
    | nil => rw [hsy] at hrep; cases hrep
    | cons sa as =>
      rw [hsy] at hrep
      have c : Call K ρ s vm f vals := ⟨hcore, ⟨fs, sa, as, hf, hsy, (List.forall₂_cons.mp hrep).2⟩, ⟨ra, S, rs, m, hrest, hra, hm⟩, hroom⟩
      suffices h : DoesEv K ρ s vm (stdFuns K.E other n vm) (Lang.stdLib n (self :: vals)) from h
      have hself : HasSelf ρ vm f self := ⟨sa, as, hsy, (List.forall₂_cons.mp hrep).1⟩
      have pick : ∀ k (x : String × String), x.1 ≠ "neighbors" → Lang.libNames[k]? = some x → Lang.stdLib k (self :: vals) = Lang.libByName x vals := by
        intro k x hx h
        unfold Lang.stdLib
        rw [h]
        show Lang.libWithSelf x self vals = _
        unfold Lang.libWithSelf
        split
        · exact absurd rfl hx
        · exact absurd rfl hx
        · rfl
      by_cases h0 : n = 0
      · subst h0
        have : Lang.stdLib 0 (self :: vals) = Lang.nbrGet self vals := by
          unfold Lang.stdLib
          rw [show Lang.libNames[0]? = some ("neighbors", "get") by decide +kernel]
          rfl
        rw [this]
        exact nbrGet_does c law hself
      by_cases h7 : n = 7
      · subst h7
        have : Lang.stdLib 7 (self :: vals) = Lang.nbrCount self vals := by
          unfold Lang.stdLib
          rw [show Lang.libNames[7]? = some ("neighbors", "count") by decide +kernel]
          rfl
        rw [this]
        exact nbrCount_does c law hself
      by_cases h11 : n = 11
      · subst h11
        rw [pick 11 ("", "type") (by decide) (by decide +kernel)]
        simp only [Lang.libByName]
        exact (type_does c).ev
      by_cases h12 : n = 12
      · subst h12
        rw [pick 12 ("", "int") (by decide) (by decide +kernel)]
        simp only [Lang.libByName]
        exact (int_does c).ev
      by_cases h13 : n = 13
      · subst h13
        rw [pick 13 ("", "float") (by decide) (by decide +kernel)]
        simp only [Lang.libByName]
        exact (float_does c).ev
      by_cases h15 : n = 15
      · subst h15
        rw [pick 15 ("", "size") (by decide) (by decide +kernel)]
        exact size_does c
      by_cases h20 : n = 20
      · subst h20
        rw [pick 20 ("", "isnil") (by decide) (by decide +kernel)]
        simp only [Lang.libByName]
        exact (is_does c _ Lang.isNil (by intro v; cases v <;> simp [Lang.isNil, typeDesc])).ev
      by_cases h21 : n = 21
      · subst h21
        rw [pick 21 ("", "isint") (by decide) (by decide +kernel)]
        simp only [Lang.libByName]
        exact (is_does c _ Lang.isInt (by intro v; cases v <;> simp [Lang.isInt, typeDesc])).ev
      by_cases h22 : n = 22
      · subst h22
        rw [pick 22 ("", "isfloat") (by decide) (by decide +kernel)]
        simp only [Lang.libByName]
        exact (is_does c _ Lang.isFlt (by intro v; cases v <;> simp [Lang.isFlt, typeDesc])).ev
      by_cases h23 : n = 23
      · subst h23
        rw [pick 23 ("", "isstring") (by decide) (by decide +kernel)]
        simp only [Lang.libByName]
        exact (is_does c _ Lang.isStr (by intro v; cases v <;> simp [Lang.isStr, typeDesc])).ev
      by_cases h24 : n = 24
      · subst h24
        rw [pick 24 ("", "istable") (by decide) (by decide +kernel)]
        simp only [Lang.libByName]
        exact (is_does c _ Lang.isTab (by intro v; cases v <;> simp [Lang.isTab, typeDesc])).ev
      by_cases h25 : n = 25
      · subst h25
        rw [pick 25 ("", "isclosure") (by decide) (by decide +kernel)]
        simp only [Lang.libByName]
        exact (is_does c _ Lang.isClo (by intro v; cases v <;> simp [Lang.isClo, typeDesc])).ev
      by_cases h26 : n = 26
      · subst h26
        rw [pick 26 ("", "isuserdata") (by decide) (by decide +kernel)]
        simp only [Lang.libByName]
        exact (is_does c _ Lang.isUser (by intro v; cases v <;> simp [Lang.isUser, typeDesc])).ev
      by_cases h33 : n = 33
      · subst h33
        rw [pick 33 ("math", "abs") (by decide) (by decide +kernel)]
        simp only [Lang.libByName]
        exact (abs_does c).ev
      by_cases h34 : n = 34
      · subst h34
        rw [pick 34 ("math", "floor") (by decide) (by decide +kernel)]
        simp only [Lang.libByName]
        exact (round_does c _).ev
      by_cases h35 : n = 35
      · subst h35
        rw [pick 35 ("math", "ceil") (by decide) (by decide +kernel)]
        simp only [Lang.libByName]
        exact (round_does c _).ev
      by_cases h36 : n = 36
      · subst h36
        rw [pick 36 ("math", "round") (by decide) (by decide +kernel)]
        simp only [Lang.libByName]
        exact (round_does c _).ev
      by_cases h48 : n = 48
      · subst h48
        rw [pick 48 ("math", "min") (by decide) (by decide +kernel)]
        simp only [Lang.libByName]
        exact (min_does c K.E).ev
      by_cases h49 : n = 49
      · subst h49
        rw [pick 49 ("math", "max") (by decide) (by decide +kernel)]
        simp only [Lang.libByName]
        exact (max_does c K.E).ev
      by_cases h59 : n = 59
      · subst h59
        rw [pick 59 ("string", "length") (by decide) (by decide +kernel)]
        simp only [Lang.libByName]
        exact (length_does c).ev
      by_cases h60 : n = 60
      · subst h60
        rw [pick 60 ("string", "sub") (by decide) (by decide +kernel)]
        simp only [Lang.libByName]
        exact (sub_does c).ev
      by_cases h61 : n = 61
      · subst h61
        rw [pick 61 ("string", "concat") (by decide) (by decide +kernel)]
        simp only [Lang.libByName]
        exact (concat_does c).ev
      by_cases h62 : n = 62
      · subst h62
        rw [pick 62 ("string", "tostring") (by decide) (by decide +kernel)]
        simp only [Lang.libByName]
        exact (tostring_does c).ev
      by_cases h63 : n = 63
      · subst h63
        rw [pick 63 ("string", "toint") (by decide) (by decide +kernel)]
        simp only [Lang.libByName]
        exact (toint_does c).ev
      have : Lang.stdLib n (self :: vals) = Lang.odd := std_odd (by simp only [defined, List.mem_cons, List.not_mem_nil, or_false]; omega) _
      rw [this]
      trivial

end Buzz.Sim
