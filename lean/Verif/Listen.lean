import Verif.HeapWire
import Verif.SwarmExec

/-
`neighbors.listen`, `neighbors.ignore` (buzzneighbors.c 154-183) and the dispatch of received broadcasts (buzzvm.c 251-275).
-/
namespace Buzz.VM

open Buzz.F32 Buzz.Msg Buzz.Heap Buzz.Props Buzz.HeapWire

/-- `buzzneighbors_listen` (buzzneighbors.c 154-168) with `buzzvm_lnum_assert` (buzzvm.h 868) and `buzzvm_type_assert` (buzzvm.h 755).  The
symbol 0 is the self object. -/
def neighborsListen (vm : VM) : Res VM :=
  match vm.frames with
  | [] => .ub
  | f :: _ =>
    if f.syms.length ≠ 3 then pure (setErr vm .lnum)
    else do
      let vm ← lload vm 1
      let t ← peek vm 1
      match t with
      | .str sid _ => do
        let vm ← lload vm 2
        let c ← peekCell vm 1
        match c with
        | .clo _ _ _ => do
          let a ← peekAddr vm 1
          ret0 { vm with other := { vm.other with listeners := FMap.set vm.other.listeners sid a } }
        | _ => pure (setErr vm .type)
      | _ => pure (setErr vm .type)

/-- `buzzneighbors_ignore` (buzzneighbors.c 173-183). -/
def neighborsIgnore (vm : VM) : Res VM :=
  match vm.frames with
  | [] => .ub
  | f :: _ =>
    if f.syms.length ≠ 2 then pure (setErr vm .lnum)
    else do
      let vm ← lload vm 1
      let t ← peek vm 1
      match t with
      | .str sid _ => ret0 { vm with other := { vm.other with listeners := FMap.del vm.other.listeners sid } }
      | _ => pure (setErr vm .type)

/-- The case `BUZZMSG_BROADCAST` of `buzzvm_process_inmsgs` (buzzvm.c 251-275) for payload `buf` from robot `rid`.  Neither the position
returned by `buzzobj_deserialize` nor the type of the topic is checked: the id is then read from something that is no string, or the value
is read from position -1, which are undefined here. -/
def onBroadcast (E : Env) (F : CFuns) (fuel : Nat) (buf : Bytes) (rid : Nat) (vm : VM) : Res VM := do
  let g ← hdeser E.sc buf (buf.length + 1) 1 vm.heap vm.strings
  match g.data with
  | none => .ub
  | some t => do
    let m ← deref g.h t
    match m.cell with
    | .atom (.str sid _) =>
      match FMap.get vm.other.listeners sid with
      | none => pure { vm with heap := g.h, strings := g.sm }
      | some l =>
        match g.pos with
        | none => .ub
        | some p => do
          let r ← hdeser E.sc buf (buf.length + 1) p g.h g.sm
          match r.data with
          | none => .ub
          | some v => do
            let o := newobj r.h (.atom (.int rid))
            let w ← closureCall E F fuel 3 { vm with heap := o.1, strings := r.sm, stack := o.2 :: v :: t :: l :: vm.stack }
            pure (pop w)
    | _ => .ub

/-! ### Instructions leave strings and listeners alone -/

/-- Same strings, same stigmergies, listeners and queues. -/
def Untouched (vm vm' : VM) : Prop := vm'.strings = vm.strings ∧ vm'.other = vm.other

theorem Untouched.refl (vm : VM) : Untouched vm vm := ⟨rfl, rfl⟩

theorem Untouched.trans {u v w : VM} (a : Untouched u v) (b : Untouched v w) : Untouched u w := ⟨b.1.trans a.1, b.2.trans a.2⟩

abbrev Unt (vm : VM) (r : Res VM) : Prop := Outcome (Untouched vm) (fun _ => True) r

theorem unt_need {vm v : VM} {n : Int} {k : Res VM} (h : Untouched vm v) (hk : Unt vm k) : Unt vm (need v n k) := by
  unfold need
  split
  · exact h.trans ⟨rfl, rfl⟩
  · exact hk

theorem unt_assert {vm v : VM} {k : VM → Res VM} (h : Untouched vm v) (hk : Unt vm (k v)) : Unt vm (assertPc v k) := by
  unfold assertPc
  split
  · exact h.trans ⟨rfl, rfl⟩
  · exact hk

theorem unt_inc {vm v : VM} {k : VM → Res VM} (h : Untouched vm v) (hk : ∀ w, Untouched vm w → Unt vm (k w)) : Unt vm (incPc v k) := by
  unfold incPc
  exact unt_assert (h.trans ⟨rfl, rfl⟩) (hk _ (h.trans ⟨rfl, rfl⟩))

theorem unt_ready {vm v : VM} {k : VM → Res VM} (h : Untouched vm v) (hk : Unt vm (k v)) : Unt vm (ifReady v k) := by
  unfold ifReady
  split
  · exact hk
  · exact h

theorem unt_arg {E : Env} {vm v : VM} {k : VM → Nat → Res VM} (h : Untouched vm v) (hk : ∀ w a, Untouched vm w → Unt vm (k w a)) :
    Unt vm (getArg E v k) := by
  unfold getArg
  split
  · exact h.trans ⟨rfl, rfl⟩
  · exact (Outcome.any _).bind (fun a _ => hk _ a (h.trans ⟨rfl, rfl⟩))

theorem unt_bind {α : Type} {vm : VM} {r : Res α} {k : α → Res VM} (hk : ∀ x, Unt vm (k x)) : Unt vm (r >>= k) :=
  (Outcome.any r).bind (fun x _ => hk x)

/-- Repeated case distinction in a definition that never touches strings or listeners. -/
macro "untouched" : tactic => `(tactic| repeat' first | trivial | exact ⟨rfl, rfl⟩ | (apply unt_need ⟨rfl, rfl⟩) | (apply unt_bind; intro _) | split)

theorem binop_unt {E : Env} {b : Bin} (vm : VM) : Unt vm (binop E b vm) := by unfold binop; untouched
theorem unop_unt {u : Un} (vm : VM) : Unt vm (unop u vm) := by unfold unop; untouched
theorem pop_unt (vm : VM) : Untouched vm (pop vm) := by unfold pop; untouched
theorem dup_unt (vm : VM) : Untouched vm (dup vm) := by unfold dup; untouched
theorem pushS_unt (vm : VM) (a : Nat) : Untouched vm (pushS vm a) := by unfold pushS; untouched
theorem pushL_unt (vm : VM) (a : Int) : Untouched vm (pushL vm a) := by unfold pushL; untouched
theorem tput_unt {E : Env} (vm : VM) : Unt vm (tput E vm) := by unfold tput; untouched
theorem tget_unt {E : Env} (vm : VM) : Unt vm (tget E vm) := by unfold tget; untouched
theorem gload_unt (vm : VM) : Unt vm (gload vm) := by unfold gload; untouched
theorem gstore_unt (vm : VM) : Unt vm (gstore vm) := by unfold gstore; untouched
theorem lload_unt (vm : VM) (n : Nat) : Unt vm (lload vm n) := by unfold lload; untouched
theorem lstore_unt (vm : VM) (n : Nat) : Unt vm (lstore vm n) := by unfold lstore; untouched
theorem lremove_unt (vm : VM) (n : Nat) : Unt vm (lremove vm n) := by unfold lremove; untouched
theorem ret0_unt (vm : VM) : Unt vm (ret0 vm) := by unfold ret0 retTo; untouched
theorem ret1_unt (vm : VM) : Unt vm (ret1 vm) := by unfold ret1 retTo; untouched
theorem jumpIf_unt (vm : VM) (b : Bool) (a : Nat) : Unt vm (jumpIf vm b a) := by
  unfold jumpIf
  apply unt_need ⟨rfl, rfl⟩
  apply unt_bind
  intro x
  split
  · exact unt_assert ⟨rfl, rfl⟩ ((show Untouched vm _ from ⟨rfl, rfl⟩).trans (pop_unt _))
  · exact pop_unt vm

theorem unt_then {vm : VM} {r : Res VM} {k : VM → Res VM} (h : Unt vm r) (hk : ∀ w, Untouched vm w → Unt vm (k w)) : Unt vm (r >>= k) := h.bind hk

theorem unt_from {u v : VM} {r : Res VM} (h : Untouched u v) (hr : Unt v r) : Unt u r := hr.mono (fun _ hx => h.trans hx) (fun _ h => h)

/-- An instruction other than a call. -/
theorem exec_unt {E : Env} {F : CFuns} (vm : VM) (op : Op) (ho : op ∉ [Op.callc, .calls]) : Unt vm (exec E F vm op) := by
  have pw : ∀ {v}, Untouched vm v → Unt vm (pure v) := fun h => h
  have r := Untouched.refl vm
  cases op with
  | nop => exact unt_inc r (fun _ h => h)
  | done => exact ⟨rfl, rfl⟩
  | pushnil => exact unt_inc r (fun w h => h.trans ⟨rfl, rfl⟩)
  | dup => exact unt_inc r (fun w h => h.trans (dup_unt w))
  | pop => exact unt_ready (k := fun vm => incPc vm pure) (pop_unt vm) (unt_inc (v := VM.pop vm) (k := pure) (pop_unt vm) (fun _ h => h))
  | ret0 => exact unt_then (ret0_unt vm) (fun w h => unt_ready h (unt_assert h h))
  | ret1 => exact unt_then (ret1_unt vm) (fun w h => unt_ready h (unt_assert h h))
  | bin b => exact unt_then (binop_unt vm) (fun w h => unt_inc h (fun _ h => h))
  | un u => exact unt_then (unop_unt vm) (fun w h => unt_inc h (fun _ h => h))
  | gload => exact unt_inc r (fun w h => unt_from h (gload_unt w))
  | gstore => exact unt_inc r (fun w h => unt_from h (gstore_unt w))
  | pusht => exact unt_inc (v := pushT vm) (k := pure) ⟨rfl, rfl⟩ (fun _ h => h)
  | tput => exact unt_then (tput_unt vm) (fun w h => unt_ready h (unt_inc h (fun _ h => h)))
  | tget => exact unt_then (tget_unt vm) (fun w h => unt_ready h (unt_inc h (fun _ h => h)))
  | callc => simp at ho
  | calls => simp at ho
  | pushf => exact unt_inc r (fun w h => unt_arg h (fun x a h => h.trans ⟨rfl, rfl⟩))
  | pushi => exact unt_inc r (fun w h => unt_arg h (fun x a h => h.trans ⟨rfl, rfl⟩))
  | pushs => exact unt_inc r (fun w h => unt_arg h (fun x a h => h.trans (pushS_unt x a)))
  | pushcn => exact unt_inc r (fun w h => unt_arg h (fun x a h => h.trans ⟨rfl, rfl⟩))
  | pushcc => exact unt_inc r (fun w h => unt_arg h (fun x a h => h.trans ⟨rfl, rfl⟩))
  | pushl => exact unt_inc r (fun w h => unt_arg h (fun x a h => h.trans (pushL_unt x _)))
  | lload => exact unt_inc r (fun w h => unt_arg h (fun x a h => unt_from h (lload_unt x a)))
  | lstore => exact unt_inc r (fun w h => unt_arg h (fun x a h => unt_from h (lstore_unt x a)))
  | lremove => exact unt_inc r (fun w h => unt_arg h (fun x a h => unt_from h (lremove_unt x a)))
  | jump => exact unt_inc r (fun w h => unt_arg h (fun x a h => unt_assert (h.trans ⟨rfl, rfl⟩) (h.trans ⟨rfl, rfl⟩)))
  | jumpz => exact unt_inc r (fun w h => unt_arg h (fun x a h => unt_from h (jumpIf_unt x _ a)))
  | jumpnz => exact unt_inc r (fun w h => unt_arg h (fun x a h => unt_from h (jumpIf_unt x _ a)))

/-! ### Listeners -/

/-- A closure is registered for the topic with these characters. -/
def Listens (vm : VM) (s : Bytes) (c : Nat) : Prop := ∃ sid, Strman.get vm.strings sid = some s ∧ FMap.get vm.other.listeners sid = some c

/-- Listeners and the characters of their topics remain, the string table stays valid. -/
structure Kept (vm vm' : VM) : Prop where
  listeners : vm'.other.listeners = vm.other.listeners
  topics : ∀ sid c s, FMap.get vm.other.listeners sid = some c → Strman.get vm.strings sid = some s → Strman.get vm'.strings sid = some s
  strings : Strman.Inv vm.strings → Strman.Inv vm'.strings

theorem Untouched.kept {vm vm' : VM} (h : Untouched vm vm') : Kept vm vm' :=
  ⟨by rw [h.2], fun sid c s _ hs => by rw [h.1]; exact hs, fun i => by rw [h.1]; exact i⟩

theorem Kept.trans {u v w : VM} (a : Kept u v) (b : Kept v w) : Kept u w :=
  ⟨b.listeners.trans a.listeners, fun sid c s h1 h2 => b.topics sid c s (by rw [a.listeners]; exact h1) (a.topics sid c s h1 h2),
    fun i => b.strings (a.strings i)⟩

/-- Collections keep listeners and their topics. -/
theorem collect_kept {vm vm' : VM} (i : VInv vm) (h : collect vm = .ok vm') : Kept vm vm' := by
  by_cases hfull : vm.heap.maxObjs ≤ vm.heap.objs.length
  · obtain ⟨h', sm', h1, _, _, h4, _⟩ := C08_collection_exact i.heap i.strings i.roots hfull
    obtain ⟨h'', sm'', g1, _, g3, _⟩ := gc_spec i.heap i.strings (fun a ha => holds_isSome.mpr (i.roots a ha)) hfull
    rw [h1] at g1; cases g1
    simp only [collect, h1, Res.ok_bind, Res.pure_eq, Res.ok.injEq] at h
    subst h
    refine ⟨rfl, fun sid c s hl hs => ?_, fun _ => g3⟩
    show Strman.get sm' sid = some s
    unfold Strman.get at hs ⊢
    obtain ⟨⟨x, y⟩, hp, hps⟩ := Option.map_eq_some_iff.mp hs
    simp only at hps
    subst hps
    rw [(h4 sid x y).mpr ⟨hp, .inr (.inl ⟨_, FMap.mem_of_get hl, rfl⟩)⟩]
    rfl
  · obtain ⟨h', sm', e, _, _, _, _⟩ := collect_spec i
    unfold collect gc at h
    rw [if_pos (by omega)] at h
    simp only [Res.ok_bind, Res.pure_eq, Res.ok.injEq] at h
    subst h
    exact ⟨rfl, fun _ _ _ _ h => h, fun h => h⟩

/-- What scripts do to listeners. -/
inductive Ev where
  | listen (topic : Bytes) (closure : Nat)
  | ignore (topic : Bytes)

/-- The topic an event concerns. -/
def Ev.topic : Ev → Bytes
  | .listen s _ => s
  | .ignore s => s

/-- The machine goes from one state to another, and on its way these calls of `neighbors.listen` and `neighbors.ignore` are made; all else
that happens keeps listeners and the characters of their topics. -/
inductive Trace : List Ev → VM → VM → Prop where
  | quiet {vm vm' : VM} : Kept vm vm' → Trace [] vm vm'
  | listen {vm vm' : VM} {f : Frame} {fs : List Frame} {self t c : Nat} {sid : Nat} {s : Bytes} {n : Bool} {r : Int} {l : List Nat} :
      VInv vm → vm.frames = f :: fs → f.syms = [self, t, c] → Holds vm.heap t (.atom (.str sid s)) → Holds vm.heap c (.clo n r l) →
      neighborsListen vm = .ok vm' → Trace [.listen s c] vm vm'
  | ignore {vm vm' : VM} {f : Frame} {fs : List Frame} {self t : Nat} {sid : Nat} {s : Bytes} :
      VInv vm → vm.frames = f :: fs → f.syms = [self, t] → Holds vm.heap t (.atom (.str sid s)) →
      neighborsIgnore vm = .ok vm' → Trace [.ignore s] vm vm'
  | trans {u v w : VM} {l l' : List Ev} : Trace l u v → Trace l' v w → Trace (l ++ l') u w

/-- C functions whose effect on listeners is that of calls of `listen` and `ignore`. -/
def FTrace (F : CFuns) : Prop := ∀ n v w, VInv v → F n v = .ok w → ∃ log, Trace log v w

theorem Trace.quietR {l : List Ev} {u v w : VM} (h : Trace l u v) (k : Kept v w) : Trace l u w := by
  have := h.trans (.quiet k)
  rwa [List.append_nil] at this

theorem Trace.quietL {l : List Ev} {u v w : VM} (k : Kept u v) (h : Trace l v w) : Trace l u w := (Trace.quiet k).trans h

theorem peek_top {vm : VM} {a : Nat} {c : Cell} (h : Holds vm.heap a c) (s : List Nat) :
    peek { vm with stack := a :: s } 1 = .ok (objOf a c) ∧ peekCell { vm with stack := a :: s } 1 = .ok c ∧ peekAddr { vm with stack := a :: s } 1 = .ok a := by
  obtain ⟨b, h1, _, h3, h4, h5⟩ := At.peekCell (vm := { vm with stack := a :: s }) (i := 0) ⟨a, rfl, h⟩
  have : b = a := by simpa using h1.symm
  subst this
  simp only [Nat.zero_add, Nat.cast_one] at h3 h4 h5
  exact ⟨h5, h4, h3⟩

theorem lload_at {vm : VM} {f : Frame} {fs : List Frame} (hf : vm.frames = f :: fs) {k a : Nat} (ha : f.syms[k]? = some a) :
    lload vm k = .ok { vm with stack := a :: vm.stack } := by
  have := (List.getElem?_eq_some_iff.mp ha).1
  unfold lload
  rw [hf]
  simp only
  rw [if_neg (by omega), ha, ← hf]
  rfl

/-- `listen` with a string and a closure. -/
theorem listen_ok {vm : VM} {f : Frame} {fs : List Frame} {self t c : Nat} {sid : Nat} {s : Bytes} {n : Bool} {r : Int} {l : List Nat}
    (hf : vm.frames = f :: fs) (hs : f.syms = [self, t, c]) (ht : Holds vm.heap t (.atom (.str sid s))) (hc : Holds vm.heap c (.clo n r l)) :
    neighborsListen vm =
      ret0 { vm with stack := c :: t :: vm.stack, other := { vm.other with listeners := FMap.set vm.other.listeners sid c } } := by
  unfold neighborsListen
  rw [hf]
  simp only [hs]
  rw [if_neg (by simp), lload_at hf (by rw [hs]; rfl), Res.ok_bind, (peek_top ht _).1, Res.ok_bind]
  simp only [objOf]
  rw [lload_at (vm := { vm with stack := t :: vm.stack }) hf (k := 2) (a := c) (by rw [hs]; rfl), Res.ok_bind]
  simp only
  rw [(peek_top hc _).2.1, Res.ok_bind]
  simp only
  rw [(peek_top hc _).2.2, Res.ok_bind, ← hf]

/-- `ignore` with a string. -/
theorem ignore_ok {vm : VM} {f : Frame} {fs : List Frame} {self t : Nat} {sid : Nat} {s : Bytes}
    (hf : vm.frames = f :: fs) (hs : f.syms = [self, t]) (ht : Holds vm.heap t (.atom (.str sid s))) :
    neighborsIgnore vm =
      ret0 { vm with stack := t :: vm.stack, other := { vm.other with listeners := FMap.del vm.other.listeners sid } } := by
  unfold neighborsIgnore
  rw [hf]
  simp only [hs]
  rw [if_neg (by simp), lload_at hf (by rw [hs]; rfl), Res.ok_bind, (peek_top ht _).1, Res.ok_bind]
  rw [← hf]
  rfl

/-- Every call of `listen` is logged or changes nothing. -/
theorem listen_trace {v w : VM} (i : VInv v) (h : neighborsListen v = .ok w) : ∃ log, Trace log v w := by
  cases hf : v.frames with
  | nil => unfold neighborsListen at h; rw [hf] at h; cases h
  | cons f fs =>
    by_cases hl : f.syms.length = 3
    swap
    · unfold neighborsListen at h
      rw [hf] at h
      simp only at h
      rw [if_pos hl] at h
      cases h
      exact ⟨[], .quiet (Untouched.kept ⟨rfl, rfl⟩)⟩
    obtain ⟨self, t, c, hs⟩ := List.length_eq_three.mp hl
    obtain ⟨ct, ht⟩ := i.frames f (by rw [hf]; simp) t (by rw [hs]; simp)
    obtain ⟨cc, hc⟩ := i.frames f (by rw [hf]; simp) c (by rw [hs]; simp)
    by_cases g : ∃ sid s, ct = .atom (.str sid s)
    · obtain ⟨sid, s, rfl⟩ := g
      by_cases g2 : ∃ n r l, cc = .clo n r l
      · obtain ⟨n, r, l, rfl⟩ := g2
        exact ⟨_, .listen i hf hs ht hc h⟩
      · refine ⟨[], .quiet (Untouched.kept ?_)⟩
        unfold neighborsListen at h
        rw [hf] at h
        simp only [hs] at h
        rw [if_neg (by simp), lload_at hf (by rw [hs]; rfl), Res.ok_bind, (peek_top ht _).1, Res.ok_bind] at h
        simp only [objOf] at h
        rw [lload_at (vm := { v with stack := t :: v.stack }) hf (k := 2) (a := c) (by rw [hs]; rfl), Res.ok_bind] at h
        simp only at h
        rw [(peek_top hc _).2.1, Res.ok_bind] at h
        cases cc with
        | clo n r l => exact absurd ⟨n, r, l, rfl⟩ g2
        | atom o => cases h; exact ⟨rfl, rfl⟩
        | tab o => cases h; exact ⟨rfl, rfl⟩
    · refine ⟨[], .quiet (Untouched.kept ?_)⟩
      unfold neighborsListen at h
      rw [hf] at h
      simp only [hs] at h
      rw [if_neg (by simp), lload_at hf (by rw [hs]; rfl), Res.ok_bind, (peek_top ht _).1, Res.ok_bind] at h
      cases ct with
      | atom o =>
        cases o with
        | str sid s => exact absurd ⟨sid, s, rfl⟩ g
        | _ => cases h; exact ⟨rfl, rfl⟩
      | tab o => cases h; exact ⟨rfl, rfl⟩
      | clo _ _ _ => cases h; exact ⟨rfl, rfl⟩

/-- Every call of `ignore` is logged or changes nothing. -/
theorem ignore_trace {v w : VM} (i : VInv v) (h : neighborsIgnore v = .ok w) : ∃ log, Trace log v w := by
  cases hf : v.frames with
  | nil => unfold neighborsIgnore at h; rw [hf] at h; cases h
  | cons f fs =>
    by_cases hl : f.syms.length = 2
    swap
    · unfold neighborsIgnore at h
      rw [hf] at h
      simp only at h
      rw [if_pos hl] at h
      cases h
      exact ⟨[], .quiet (Untouched.kept ⟨rfl, rfl⟩)⟩
    obtain ⟨self, t, hs⟩ := List.length_eq_two.mp hl
    obtain ⟨ct, ht⟩ := i.frames f (by rw [hf]; simp) t (by rw [hs]; simp)
    by_cases g : ∃ sid s, ct = .atom (.str sid s)
    · obtain ⟨sid, s, rfl⟩ := g
      exact ⟨_, .ignore i hf hs ht h⟩
    · refine ⟨[], .quiet (Untouched.kept ?_)⟩
      unfold neighborsIgnore at h
      rw [hf] at h
      simp only [hs] at h
      rw [if_neg (by simp), lload_at hf (by rw [hs]; rfl), Res.ok_bind, (peek_top ht _).1, Res.ok_bind] at h
      cases ct with
      | atom o =>
        cases o with
        | str sid s => exact absurd ⟨sid, s, rfl⟩ g
        | _ => cases h; exact ⟨rfl, rfl⟩
      | tab o => cases h; exact ⟨rfl, rfl⟩
      | clo _ _ _ => cases h; exact ⟨rfl, rfl⟩

theorem fmap_del_mem {K V : Type} [DecidableEq K] {m : List (K × V)} {k : K} {e : K × V} (h : e ∈ FMap.del m k) : e ∈ m :=
  (List.mem_filter.mp h).1

theorem VInv.setListeners {vm : VM} (i : VInv vm) {l : List (Nat × Nat)} (h : ∀ e ∈ l, Live vm.heap e.2) :
    VInv { vm with other := { vm.other with listeners := l } } :=
  { i with other := { i.other with listeners := h } }

/-- `listen` keeps the memory invariant. -/
theorem listen_inv {v w : VM} (i : VInv v) (hr : v.state = .ready) (h : neighborsListen v = .ok w) : VInv w := by
  obtain ⟨log, tr⟩ := listen_trace i h
  cases hf : v.frames with
  | nil => unfold neighborsListen at h; rw [hf] at h; cases h
  | cons f fs =>
    by_cases hl : f.syms.length = 3
    swap
    · unfold neighborsListen at h
      rw [hf] at h
      simp only at h
      rw [if_pos hl] at h
      cases h
      exact i.setErr _
    obtain ⟨self, t, c, hs⟩ := List.length_eq_three.mp hl
    have lt := i.frames f (by rw [hf]; simp) t (by rw [hs]; simp)
    have lc := i.frames f (by rw [hf]; simp) c (by rw [hs]; simp)
    obtain ⟨ct, ht⟩ := lt
    obtain ⟨cc, hc⟩ := lc
    by_cases g : ∃ sid s, ct = .atom (.str sid s)
    · obtain ⟨sid, s, rfl⟩ := g
      by_cases g2 : ∃ n r l, cc = .clo n r l
      · obtain ⟨n, r, l, rfl⟩ := g2
        rw [listen_ok hf hs ht hc] at h
        have i2 : VInv { v with stack := c :: t :: v.stack, other := { v.other with listeners := FMap.set v.other.listeners sid c } } := by
          refine VInv.setListeners (vm := { v with stack := c :: t :: v.stack }) ((i.pushAddr ⟨_, ht⟩).pushAddr ⟨_, hc⟩) (fun e he => ?_)
          rcases List.mem_append.mp he with he | he
          · exact i.other.listeners e (List.mem_filter.mp he).1
          · simp only [List.mem_singleton] at he; subst he; exact ⟨_, hc⟩
        have := ret0_out (C := fun _ => True) i2 (by rw [show ({ v with stack := c :: t :: v.stack, other := { v.other with listeners := FMap.set v.other.listeners sid c } } : VM).state = v.state from rfl, hr]; simp) (fun _ => trivial)
        rw [h] at this
        exact this
      · unfold neighborsListen at h
        rw [hf] at h
        simp only [hs] at h
        rw [if_neg (by simp), lload_at hf (by rw [hs]; rfl), Res.ok_bind, (peek_top ht _).1, Res.ok_bind] at h
        simp only [objOf] at h
        rw [lload_at (vm := { v with stack := t :: v.stack }) hf (k := 2) (a := c) (by rw [hs]; rfl), Res.ok_bind] at h
        simp only at h
        rw [(peek_top hc _).2.1, Res.ok_bind] at h
        have i2 := ((i.pushAddr ⟨_, ht⟩).pushAddr ⟨_, hc⟩).setErr .type
        cases cc with
        | clo n r l => exact absurd ⟨n, r, l, rfl⟩ g2
        | atom o => cases h; exact i2
        | tab o => cases h; exact i2
    · unfold neighborsListen at h
      rw [hf] at h
      simp only [hs] at h
      rw [if_neg (by simp), lload_at hf (by rw [hs]; rfl), Res.ok_bind, (peek_top ht _).1, Res.ok_bind] at h
      have i2 := (i.pushAddr ⟨_, ht⟩).setErr .type
      cases ct with
      | atom o =>
        cases o with
        | str sid s => exact absurd ⟨sid, s, rfl⟩ g
        | _ => cases h; exact i2
      | tab o => cases h; exact i2
      | clo _ _ _ => cases h; exact i2

/-- `ignore` keeps the memory invariant. -/
theorem ignore_inv {v w : VM} (i : VInv v) (hr : v.state = .ready) (h : neighborsIgnore v = .ok w) : VInv w := by
  cases hf : v.frames with
  | nil => unfold neighborsIgnore at h; rw [hf] at h; cases h
  | cons f fs =>
    by_cases hl : f.syms.length = 2
    swap
    · unfold neighborsIgnore at h
      rw [hf] at h
      simp only at h
      rw [if_pos hl] at h
      cases h
      exact i.setErr _
    obtain ⟨self, t, hs⟩ := List.length_eq_two.mp hl
    obtain ⟨ct, ht⟩ := i.frames f (by rw [hf]; simp) t (by rw [hs]; simp)
    by_cases g : ∃ sid s, ct = .atom (.str sid s)
    · obtain ⟨sid, s, rfl⟩ := g
      rw [ignore_ok hf hs ht] at h
      have i2 : VInv { v with stack := t :: v.stack, other := { v.other with listeners := FMap.del v.other.listeners sid } } :=
        VInv.setListeners (vm := { v with stack := t :: v.stack }) (i.pushAddr ⟨_, ht⟩) (fun e he => i.other.listeners e (fmap_del_mem he))
      have := ret0_out (C := fun _ => True) i2 (by rw [show ({ v with stack := t :: v.stack, other := { v.other with listeners := FMap.del v.other.listeners sid } } : VM).state = v.state from rfl, hr]; simp) (fun _ => trivial)
      rw [h] at this
      exact this
    · unfold neighborsIgnore at h
      rw [hf] at h
      simp only [hs] at h
      rw [if_neg (by simp), lload_at hf (by rw [hs]; rfl), Res.ok_bind, (peek_top ht _).1, Res.ok_bind] at h
      have i2 := (i.pushAddr ⟨_, ht⟩).setErr .type
      cases ct with
      | atom o =>
        cases o with
        | str sid s => exact absurd ⟨sid, s, rfl⟩ g
        | _ => cases h; exact i2
      | tab o => cases h; exact i2
      | clo _ _ _ => cases h; exact i2

/-! ### Steps -/

/-- A call is quiet but for what a C function does. -/
theorem call_trace {F : CFuns} (hT : FTrace F) {vm w : VM} (i : VInv vm) (sw : Bool) (h : call F sw vm = .ok w) : ∃ log, Trace log vm w := by
  have q : ∀ {v}, Untouched vm v → ∃ log, Trace log vm v := fun h => ⟨[], .quiet h.kept⟩
  unfold call need at h
  split at h
  · cases h; exact q ⟨rfl, rfl⟩
  rename_i hl
  obtain ⟨a1, c1, g1, k1, q1, r1, p1⟩ := peek_ok i (n := 0) (by omega)
  simp only [Nat.zero_add, Nat.cast_one] at p1
  rw [p1, Res.ok_bind] at h
  split at h
  · rename_i argn hv
    simp only at h
    split at h
    · cases h
    · split at h
      · cases h; exact q ⟨rfl, rfl⟩
      · obtain ⟨c, hc, h⟩ := Res.bind_eq_ok.mp h
        split at h
        · rename_i native ref actrec
          split at h
          · cases h; exact q ⟨rfl, rfl⟩
          · have hc2 : ∀ b ∈ actrec, Live vm.heap b := by
              unfold peekCell at hc
              obtain ⟨a, ha, hc⟩ := Res.bind_eq_ok.mp hc
              unfold deref at hc
              obtain ⟨m, hm, hc⟩ := Res.bind_eq_ok.mp hc
              cases hg : FMap.get (popN vm 1).heap.objs a with
              | none => rw [hg] at hm; cases hm
              | some m' =>
                rw [hg] at hm
                cases hm
                simp only [Res.pure_eq, Res.ok.injEq] at hc
                exact (i.cells a _ ⟨m, hg, hc⟩).2
            have i3 : VInv (enter (popN vm 1) argn.toNat actrec sw) := (i.popN 1).enter _ _ hc2
            split at h
            · cases h; exact q ⟨rfl, rfl⟩
            · split at h
              · cases h
              · obtain ⟨log, tr⟩ := hT _ _ _ i3 h
                exact ⟨log, .quietL (Untouched.kept (vm := vm) (vm' := enter (popN vm 1) argn.toNat actrec sw) ⟨rfl, rfl⟩) tr⟩
        · cases h; exact q ⟨rfl, rfl⟩
  · cases h; exact q ⟨rfl, rfl⟩

theorem after_call {w w' : VM} (h : ifReady w (fun vm => assertPc vm pure) = .ok w') : Kept w w' := by
  have : Unt w (ifReady w (fun vm => assertPc vm pure)) := unt_ready (.refl _) (unt_assert (.refl _) (.refl _))
  rw [h] at this
  exact Untouched.kept this

/-- **Every step**: listeners change by calls of `listen` and `ignore` only, and their topics keep their characters. -/
theorem step_trace {E : Env} {F : CFuns} (hT : FTrace F) {vm w : VM} (i : VInv vm) (h : step E F vm = .ok w) : ∃ log, Trace log vm w := by
  unfold step at h
  split at h
  · cases h; exact ⟨[], .quiet (Untouched.refl _).kept⟩
  · obtain ⟨u, hu, h⟩ := Res.bind_eq_ok.mp h
    have k1 := collect_kept i hu
    obtain ⟨h', sm', e, j, _⟩ := collect_spec i
    rw [hu] at e
    simp only [Res.ok.injEq] at e
    subst e
    obtain ⟨n, _, h⟩ := Res.bind_eq_ok.mp h
    split at h
    · rename_i op _
      have cs : ∀ sw, (incPc { vm with heap := h', strings := sm' } (fun vm => do
          let vm ← call F sw vm
          ifReady vm (fun vm => assertPc vm pure))) = .ok w → ∃ log, Trace log vm w := by
        intro sw h
        unfold incPc assertPc at h
        simp only at h
        split at h
        · cases h
          exact ⟨[], .quiet (k1.trans (Untouched.kept ⟨rfl, rfl⟩))⟩
        · rename_i hpc
          obtain ⟨x, h1, h2⟩ := Res.bind_eq_ok.mp h
          have j' : VInv { vm with heap := h', strings := sm', pc := vm.pc + 1 } :=
            VInv.setPc (vm := { vm with heap := h', strings := sm' }) j (by have := i.size; unfold I32; omega)
          obtain ⟨log, tr⟩ := call_trace hT j' sw h1
          exact ⟨log, (Trace.quietL (k1.trans (Untouched.kept (vm' := { vm with heap := h', strings := sm', pc := vm.pc + 1 }) ⟨rfl, rfl⟩)) tr).quietR (after_call h2)⟩
      by_cases ho : op ∈ [Op.callc, .calls]
      · simp only [List.mem_cons, List.not_mem_nil, or_false] at ho
        rcases ho with rfl | rfl
        · exact cs false h
        · exact cs true h
      · have := exec_unt (E := E) (F := F) { vm with heap := h', strings := sm' } op ho
        rw [h] at this
        exact ⟨[], .quiet (k1.trans (Untouched.kept this))⟩
    · cases h
      exact ⟨[], .quiet (k1.trans (Untouched.kept ⟨rfl, rfl⟩))⟩

end Buzz.VM
