import Verif.Props.BadKeys
import Verif.StigCreate

/-
The instructions that write and read entries of tables (C82): `buzzvm_tput` and `buzzvm_tget` (buzzvm.c 1273-1332) on the machine.
-/
namespace Buzz.Props

open Buzz.VM Buzz.F32 Buzz.Msg Buzz.Heap

variable {E : Env} {vm : VM} {S : Obj → Prop}

/-- What is to be found under the key `ka` after writing the object `va`: nothing if it is nil; a new closure with the table as first symbol if it is a closure; and otherwise the object itself. -/
def Written (h h' : Heap) (ta ka va : Nat) : Cell → Option (Nat × Nat) → Prop
  | .atom .nil, e => e = none
  | .clo n r l, e => ∃ oa, e = some (ka, oa) ∧ ¬ Live h oa ∧ Holds h' oa (.clo n r (ta :: l.tail))
  | _, e => e = some (ka, va)

theorem find_put {t t' : Table.Tbl (Nat × Nat)} {k : Obj} {v : Option (Nat × Nat)} (H : Table.Homog E.sc S) (wf : Dict.WF Table.hashN Table.eqd t) (ks : Table.Keys S t)
    (wf' : Dict.WF Table.hashN Table.eqd t') (ks' : Table.Keys S t') (sk : S k) (hp : (Dict.entries t').Perm ((Dict.entries t).filter (fun e => !Table.eqd k e.1) ++ (v.map (fun v => (k, v))).toList)) :
    Table.get E.sc t' k = .ok v ∧ ∀ j, S j → j ≠ k → Table.get E.sc t' j = Table.get E.sc t j := by
  have key : ∀ x, S x → ((Dict.entries t').find? (fun e => Table.eqd x e.1)).map (·.2) = if x = k then v else ((Dict.entries t).find? (fun e => Table.eqd x e.1)).map (·.2) := by
    intro x hx
    rw [find_perm Table.eqd_lawful (Dict.entries_uniq Table.eqd_lawful wf') hp x, List.find?_append, find_filter Table.eqd_lawful]
    by_cases hxk : x = k
    · subst hxk
      cases v <;> simp [Table.eqd]
    · have : Table.eqd x k = false := by simp [Table.eqd, hxk]
      rw [this]
      simp only [Bool.false_eq_true, if_false, if_neg hxk]
      cases v <;> simp [Table.eqd, hxk]
  refine ⟨?_, fun j sj hj => ?_⟩
  · rw [Table.get_spec H wf' ks' sk, key k sk, if_pos rfl]
  · rw [Table.get_spec H wf' ks' sj, Table.get_spec H wf ks sj, key j sj, if_neg hj]

/-- **C82** Writing an entry: the operands are gone from the stack; under the key there is what was written (nothing for nil, a copy with the table as `self` for a closure), under all other keys what
was there before, and all objects but the table are as they were. -/
theorem C82_write (H : Table.Homog E.sc S) (i : VInv vm) {va ka ta : Nat} {st : List Nat} {t : Table.Tbl (Nat × Nat)} {vc : Cell} {k : Obj} (hst : vm.stack = va :: ka :: ta :: st)
    (hv : Holds vm.heap va vc) (hk : Holds vm.heap ka (.atom k)) (ht : Holds vm.heap ta (.tab t)) (wf : Dict.WF Table.hashN Table.eqd t) (ks : Table.Keys S t) (sk : S k) (ik : KeyType (.atom k)) :
    ∃ h' t' e, tput E vm = .ok { vm with stack := st, heap := h' } ∧ VInv { vm with stack := st, heap := h' } ∧ Holds h' ta (.tab t') ∧ Dict.WF Table.hashN Table.eqd t' ∧ Table.Keys S t' ∧
      Table.get E.sc t' k = .ok e ∧ Written vm.heap h' ta ka va vc e ∧ (∀ j, S j → j ≠ k → Table.get E.sc t' j = Table.get E.sc t j) ∧ ∀ a c, a ≠ ta → Holds vm.heap a c → Holds h' a c := by
  have ik' : isKey k = true := isKey_of (a := ka) (c := .atom k) |>.mpr ik
  obtain ⟨a1, g1, _, p1, p2, p3⟩ := At.peekCell (vm := vm) (i := 0) ⟨va, by rw [hst]; rfl, hv⟩
  obtain ⟨a2, g2, _, q1, q2, q3⟩ := At.peekCell (vm := vm) (i := 1) ⟨ka, by rw [hst]; rfl, hk⟩
  obtain ⟨a3, g3, _, r1, r2, r3⟩ := At.peekCell (vm := vm) (i := 2) ⟨ta, by rw [hst]; rfl, ht⟩
  obtain rfl : va = a1 := by rw [hst] at g1; exact Option.some.inj g1
  obtain rfl : ka = a2 := by rw [hst] at g2; exact Option.some.inj g2
  obtain rfl : ta = a3 := by rw [hst] at g3; exact Option.some.inj g3
  simp only [Nat.zero_add, Nat.reduceAdd, Nat.cast_ofNat, Nat.cast_one, objOf] at p1 p2 q1 q3 r1 r2
  have pop : popN vm 3 = { vm with stack := st } := by simp [popN, hst]
  have start : tput E vm = (match (generalizing := false) vc with
        | .atom .nil => do
          let t' ← Table.remove E.sc t k
          pure { vm with stack := st, heap := write vm.heap ta (.tab t') }
        | .clo n r l => do
          let t' ← Table.set E.sc t k (ka, (newobj vm.heap (.clo n r (ta :: l.tail))).2)
          pure { vm with stack := st, heap := write (newobj vm.heap (.clo n r (ta :: l.tail))).1 ta (.tab t') }
        | _ => do
          let t' ← Table.set E.sc t k (ka, va)
          pure { vm with stack := st, heap := write vm.heap ta (.tab t') }) := by
    unfold tput need
    rw [if_neg (by rw [hst]; simp only [List.length_cons]; omega), r1, Res.ok_bind, r2, Res.ok_bind]
    simp only
    rw [p1, Res.ok_bind, p2, Res.ok_bind, q1, Res.ok_bind, q3, Res.ok_bind]
    simp only [ik', if_true, pop]
    cases vc with
    | atom o => cases o <;> rfl
    | _ => rfl
  have fin : ∀ h', tput E vm = .ok { vm with stack := st, heap := h' } → VInv { vm with stack := st, heap := h' } := by
    intro h' e
    have := tput_out (E := E) (F := fun _ _ => .ub) i
    rw [e] at this
    exact this.1
  have go : ∀ (v : Option (Nat × Nat)) (h : Heap), Holds h ta (.tab t) → (∀ a c, Holds vm.heap a c → Holds h a c) →
      (∀ t', Table.put E.sc t k v = .ok t' → tput E vm = .ok { vm with stack := st, heap := write h ta (.tab t') }) → (∀ t', Written vm.heap (write h ta (.tab t')) ta ka va vc v) →
      ∃ h' t' e, tput E vm = .ok { vm with stack := st, heap := h' } ∧ VInv { vm with stack := st, heap := h' } ∧ Holds h' ta (.tab t') ∧ Dict.WF Table.hashN Table.eqd t' ∧ Table.Keys S t' ∧
        Table.get E.sc t' k = .ok e ∧ Written vm.heap h' ta ka va vc e ∧ (∀ j, S j → j ≠ k → Table.get E.sc t' j = Table.get E.sc t j) ∧ ∀ a c, a ≠ ta → Holds vm.heap a c → Holds h' a c := by
    intro v h k3 ext hput hw
    obtain ⟨t', e1, e2, e3, e4⟩ := Table.put_spec H wf ks sk v
    have f := find_put H wf ks e2 e3 sk e4
    exact ⟨_, t', v, hput t' e1, fin _ (hput t' e1), (holds_write k3).mpr (.inl ⟨rfl, rfl⟩), e2, e3, f.1, hw t', f.2, fun a c ha hh => (holds_write k3).mpr (.inr ⟨ha, ext a c hh⟩)⟩
  cases vc with
  | clo n r l =>
    refine go (some (ka, (newobj vm.heap (.clo n r (ta :: l.tail))).2)) (newobj vm.heap (.clo n r (ta :: l.tail))).1 (holds_old i.heap ht) (fun a c h => holds_old i.heap h) (fun t' e => ?_) fun t' => ?_
    · rw [start]
      have e : Table.set E.sc t k (ka, (newobj vm.heap (.clo n r (ta :: l.tail))).2) = .ok t' := e
      simp only [e, Res.ok_bind, Res.pure_eq]
    · have hf : ¬ Live vm.heap (newobj vm.heap (.clo n r (ta :: l.tail))).2 := fun ⟨c, h⟩ => new_fresh i.heap _ c h
      refine ⟨_, rfl, hf, (holds_write (holds_old i.heap ht)).mpr (.inr ⟨?_, holds_new i.heap _⟩)⟩
      intro h
      exact hf (by rw [h]; exact ⟨_, ht⟩)
  | tab t0 =>
    refine go (some (ka, va)) vm.heap ht (fun _ _ h => h) (fun t' e => ?_) fun t' => rfl
    rw [start]
    have e : Table.set E.sc t k (ka, va) = .ok t' := e
    simp only [e, Res.ok_bind, Res.pure_eq]
  | atom o =>
    by_cases ho : o = .nil
    · subst ho
      refine go none vm.heap ht (fun _ _ h => h) (fun t' e => ?_) fun t' => rfl
      rw [start]
      have e : Table.remove E.sc t k = .ok t' := e
      simp only [e, Res.ok_bind, Res.pure_eq]
    · refine go (some (ka, va)) vm.heap ht (fun _ _ h => h) (fun t' e => ?_) fun t' => ?_
      · rw [start]
        have e : Table.set E.sc t k (ka, va) = .ok t' := e
        cases o <;> first | exact absurd rfl ho | simp only [e, Res.ok_bind, Res.pure_eq]
      · cases o <;> first | exact absurd rfl ho | rfl

/-- **C82** Reading an entry: key and table are replaced by the object of the entry, or by a new nil if there is none; nothing else changes. -/
theorem C82_read (i : VInv vm) {ka ta : Nat} {st : List Nat} {t : Table.Tbl (Nat × Nat)} {k : Obj} {e : Option (Nat × Nat)} (hst : vm.stack = ka :: ta :: st) (hk : Holds vm.heap ka (.atom k))
    (ht : Holds vm.heap ta (.tab t)) (ik : KeyType (.atom k)) (hg : Table.get E.sc t k = .ok e) :
    (∀ x, e = some x → tget E vm = .ok { vm with stack := x.2 :: st }) ∧
    (e = none → ∃ a h', tget E vm = .ok { vm with stack := a :: st, heap := h' } ∧ ¬ Live vm.heap a ∧ Holds h' a (.atom .nil) ∧ ∀ b c, Holds vm.heap b c → Holds h' b c) := by
  have ik' : isKey k = true := isKey_of (a := ka) (c := .atom k) |>.mpr ik
  obtain ⟨a2, g2, _, q1, q2, q3⟩ := At.peekCell (vm := vm) (i := 0) ⟨ka, by rw [hst]; rfl, hk⟩
  obtain ⟨a3, g3, _, r1, r2, r3⟩ := At.peekCell (vm := vm) (i := 1) ⟨ta, by rw [hst]; rfl, ht⟩
  simp only [Nat.zero_add, Nat.reduceAdd, Nat.cast_ofNat, Nat.cast_one, objOf] at q3 r2
  have pop : popN vm 2 = { vm with stack := st } := by simp [popN, hst]
  have start : tget E vm = (match (generalizing := false) e with | some v => .ok (pushAddr { vm with stack := st } v.2) | none => .ok (pushNil { vm with stack := st })) := by
    unfold tget need
    rw [if_neg (by rw [hst]; simp only [List.length_cons]; omega), r2, Res.ok_bind]
    simp only
    rw [q3, Res.ok_bind, if_pos ik', hg, Res.ok_bind, pop]
    cases e <;> rfl
  refine ⟨fun x hx => ?_, fun hx => ?_⟩
  · rw [start, hx]
    rfl
  · rw [start, hx]
    exact ⟨_, _, rfl, fun ⟨c, h⟩ => new_fresh i.heap _ c h, holds_new i.heap _, fun b c h => holds_old i.heap h⟩

/-- **C82** Writing and reading back: after `t[k] = v`, with any object equal to `k` and the table on the stack, the read gives `v` itself when it is neither nil nor a closure. -/
theorem C82_write_read (H : Table.Homog E.sc S) (i : VInv vm) {va ka ta ja : Nat} {st : List Nat} {t : Table.Tbl (Nat × Nat)} {vc : Cell} {k : Obj} (hst : vm.stack = va :: ka :: ta :: st)
    (hv : Holds vm.heap va vc) (hk : Holds vm.heap ka (.atom k)) (ht : Holds vm.heap ta (.tab t)) (wf : Dict.WF Table.hashN Table.eqd t) (ks : Table.Keys S t) (sk : S k) (ik : KeyType (.atom k))
    (hj : Holds vm.heap ja (.atom k)) (hn : vc ≠ .atom .nil) (hc : ∀ n r l, vc ≠ .clo n r l) :
    ∃ w, tput E vm = .ok w ∧ w.stack = st ∧ tget E { w with stack := ja :: ta :: st } = .ok { w with stack := va :: st } := by
  obtain ⟨h', t', e, p1, p2, p3, _, _, p4, p5, _, p6⟩ := C82_write H i hst hv hk ht wf ks sk ik
  have hja : ja ≠ ta := by
    rintro rfl
    obtain ⟨m, e1, e2⟩ := hj
    obtain ⟨m', e3, e4⟩ := ht
    rw [e1] at e3
    cases e3
    rw [e2] at e4
    cases e4
  have he : e = some (ka, va) := by
    cases vc with
    | clo n r l => exact absurd rfl (hc n r l)
    | tab _ => exact p5
    | atom o => cases o <;> first | exact absurd rfl hn | exact p5
  have hl : ∀ a ∈ ja :: ta :: st, Live h' a := by
    intro a ha
    rcases List.mem_cons.mp ha with rfl | ha
    · exact ⟨_, p6 _ _ hja hj⟩
    · rcases List.mem_cons.mp ha with rfl | ha
      · exact ⟨_, p3⟩
      · exact p2.stack a ha
  have iv : VInv { vm with stack := ja :: ta :: st, heap := h' } := { p2 with stack := hl }
  exact ⟨_, p1, rfl, (C82_read (vm := { vm with stack := ja :: ta :: st, heap := h' }) iv rfl (p6 _ _ hja hj) p3 ik p4).1 _ he⟩

/-- **C82** The instruction that writes an entry, with the garbage collection before it: `h` is the heap after the collection. -/
theorem C82_step_write {F : CFuns} (H : Table.Homog E.sc S) (x : At1 vm .tput) (hp : vm.pc + 1 < vm.code.length) {va ka ta : Nat} {st : List Nat} {t : Table.Tbl (Nat × Nat)} {vc : Cell} {k : Obj}
    (hst : vm.stack = va :: ka :: ta :: st) (hv : Holds vm.heap va vc) (hk : Holds vm.heap ka (.atom k)) (ht : Holds vm.heap ta (.tab t)) (wf : Dict.WF Table.hashN Table.eqd t) (ks : Table.Keys S t) (sk : S k)
    (ik : KeyType (.atom k)) :
    ∃ h w t' e, step E F vm = .ok w ∧ w.state = .ready ∧ w.pc = vm.pc + 1 ∧ w.stack = st ∧ w.rest = vm.rest ∧ w.frames = vm.frames ∧ w.gsyms = vm.gsyms ∧ Keeps vm { vm with heap := h } ∧
      Holds w.heap ta (.tab t') ∧ Dict.WF Table.hashN Table.eqd t' ∧ Table.Keys S t' ∧ Table.get E.sc t' k = .ok e ∧ Written h w.heap ta ka va vc e ∧
      (∀ j, S j → j ≠ k → Table.get E.sc t' j = Table.get E.sc t j) ∧ ∀ a c, a ≠ ta → Reach vm.heap (roots vm).Mem a → Holds vm.heap a c → Holds w.heap a c := by
  obtain ⟨h, sm, e0, j, kp, _⟩ := step_exec (E := E) (F := F) x
  have up : ∀ {a c}, a ∈ vm.stack → Holds vm.heap a c → Holds h a c := fun ha hh => kp _ _ (.root (mem_roots_stack ha)) hh
  obtain ⟨h', t', e, p1, _, p3, p4, p5, p6, p7, p8, p9⟩ := C82_write (vm := { vm with heap := h, strings := sm }) H j hst (up (by simp [hst]) hv) (up (by simp [hst]) hk) (up (by simp [hst]) ht) wf ks sk ik
  refine ⟨h, { vm with heap := h', strings := sm, stack := st, pc := vm.pc + 1 }, t', e, ?_, x.ready, rfl, rfl, rfl, rfl, rfl, kp, p3, p4, p5, p6, p7, p8, fun a c ha r hh => p9 a c ha (kp a c r hh)⟩
  rw [e0]
  simp only [exec, p1, Res.ok_bind]
  unfold ifReady
  rw [if_pos (by exact x.ready)]
  exact inc1 (v := { vm with heap := h', strings := sm, stack := st }) x.pc hp

/-- **C82** The instruction that reads an entry, with the garbage collection before it. -/
theorem C82_step_read {F : CFuns} (x : At1 vm .tget) (hp : vm.pc + 1 < vm.code.length) {ka ta : Nat} {st : List Nat} {t : Table.Tbl (Nat × Nat)} {k : Obj} {e : Option (Nat × Nat)}
    (hst : vm.stack = ka :: ta :: st) (hk : Holds vm.heap ka (.atom k)) (ht : Holds vm.heap ta (.tab t)) (ik : KeyType (.atom k)) (hg : Table.get E.sc t k = .ok e) :
    ∃ w a, step E F vm = .ok w ∧ w.state = .ready ∧ w.pc = vm.pc + 1 ∧ w.stack = a :: st ∧ w.rest = vm.rest ∧ w.frames = vm.frames ∧ w.gsyms = vm.gsyms ∧ Keeps vm w ∧
      (∀ y, e = some y → a = y.2) ∧ (e = none → Holds w.heap a (.atom .nil)) := by
  obtain ⟨h, sm, e0, j, kp, _⟩ := step_exec (E := E) (F := F) x
  have up : ∀ {a c}, a ∈ vm.stack → Holds vm.heap a c → Holds h a c := fun ha hh => kp _ _ (.root (mem_roots_stack ha)) hh
  have R := C82_read (vm := { vm with heap := h, strings := sm }) (E := E) j hst (up (by simp [hst]) hk) (up (by simp [hst]) ht) ik hg
  cases e with
  | some y =>
    refine ⟨{ vm with heap := h, strings := sm, stack := y.2 :: st, pc := vm.pc + 1 }, y.2, ?_, x.ready, rfl, rfl, rfl, rfl, rfl, kp, fun z hz => by cases hz; rfl, fun hz => by cases hz⟩
    rw [e0]
    simp only [exec, R.1 y rfl, Res.ok_bind]
    unfold ifReady
    rw [if_pos (by exact x.ready)]
    exact inc1 (v := { vm with heap := h, strings := sm, stack := y.2 :: st }) x.pc hp
  | none =>
    obtain ⟨a, h', r1, _, r3, r4⟩ := R.2 rfl
    refine ⟨{ vm with heap := h', strings := sm, stack := a :: st, pc := vm.pc + 1 }, a, ?_, x.ready, rfl, rfl, rfl, rfl, rfl, fun b c r hh => r4 b c (kp b c r hh), (fun z hz => by cases hz), fun _ => r3⟩
    rw [e0]
    simp only [exec, r1, Res.ok_bind]
    unfold ifReady
    rw [if_pos (by exact x.ready)]
    exact inc1 (v := { vm with heap := h', strings := sm, stack := a :: st }) x.pc hp

/-- One write: the objects of key and value, the content of the key, and whether the value is nil. -/
structure Wr where
  ka : Nat
  va : Nat
  k : Obj
  isNil : Bool

/-- Write the entries one after the other into the table `ta`. -/
def tputs (E : Env) (ta : Nat) : List Wr → VM → Res VM
  | [], vm => .ok vm
  | o :: r, vm => do
    let vm ← tput E { vm with stack := o.va :: o.ka :: ta :: vm.stack }
    tputs E ta r vm

/-- The value of the last write to the key, or what was there before. -/
def lastOf (f : Obj → Option Nat) : List Wr → Obj → Option Nat
  | [], k => f k
  | o :: r, k => lastOf (fun x => if x = o.k then (if o.isNil then none else some o.va) else f x) r k

/-- The objects of a write exist; the value is no closure. -/
structure WrOk (S : Obj → Prop) (h : Heap) (o : Wr) : Prop where
  key : Holds h o.ka (.atom o.k)
  mem : S o.k
  type : KeyType (.atom o.k)
  val : ∃ c, Holds h o.va c ∧ (o.isNil = true ↔ c = .atom .nil) ∧ ∀ n r l, c ≠ .clo n r l

/-- **C82** Any number of writes to a table: under every key there is the value of the last write to it, nothing if that was nil, and what was there before if it was not written. -/
theorem C82_writes (H : Table.Homog E.sc S) {ta : Nat} : ∀ (ops : List Wr) (vm : VM) (t : Table.Tbl (Nat × Nat)) (f : Obj → Option Nat), VInv vm → Holds vm.heap ta (.tab t) → Dict.WF Table.hashN Table.eqd t →
    Table.Keys S t → (∀ o ∈ ops, WrOk S vm.heap o) → (∀ k, S k → ∃ e, Table.get E.sc t k = .ok e ∧ e.map (·.2) = f k) →
    ∃ h' t', tputs E ta ops vm = .ok { vm with heap := h' } ∧ VInv { vm with heap := h' } ∧ Holds h' ta (.tab t') ∧ Dict.WF Table.hashN Table.eqd t' ∧ Table.Keys S t' ∧
      (∀ k, S k → ∃ e, Table.get E.sc t' k = .ok e ∧ e.map (·.2) = lastOf f ops k) ∧ ∀ a c, a ≠ ta → Holds vm.heap a c → Holds h' a c
  | [], vm, t, f, i, ht, wf, ks, _, hf => ⟨vm.heap, t, rfl, i, ht, wf, ks, hf, fun _ _ _ h => h⟩
  | o :: r, vm, t, f, i, ht, wf, ks, ho, hf => by
    obtain ⟨q1, q2, q3, c, q4, q5, q6⟩ := ho o (List.mem_cons_self ..)
    have hl : ∀ a ∈ o.va :: o.ka :: ta :: vm.stack, Live vm.heap a := by
      intro a ha
      simp only [List.mem_cons] at ha
      rcases ha with rfl | rfl | rfl | ha
      · exact ⟨_, q4⟩
      · exact ⟨_, q1⟩
      · exact ⟨_, ht⟩
      · exact i.stack a ha
    have iv : VInv { vm with stack := o.va :: o.ka :: ta :: vm.stack } := { i with stack := hl }
    obtain ⟨h1, t1, e1, p1, p2, p3, p4, p5, p6, p7, p8, p9⟩ := C82_write (vm := { vm with stack := o.va :: o.ka :: ta :: vm.stack }) H iv rfl q4 q1 ht wf ks q2 q3
    have he : e1.map (·.2) = if o.isNil then none else some o.va := by
      cases c with
      | clo n r l => exact absurd rfl (q6 n r l)
      | tab t0 =>
        have h0 : o.isNil = false := by
          cases h : o.isNil with
          | false => rfl
          | true => cases q5.mp h
        have p7 : e1 = some (o.ka, o.va) := p7
        rw [p7, h0]
        rfl
      | atom x =>
        by_cases hx : x = .nil
        · subst hx
          have p7 : e1 = none := p7
          rw [p7, q5.mpr rfl]
          rfl
        · have h0 : o.isNil = false := by
            cases h : o.isNil with
            | false => rfl
            | true => exact absurd (Cell.atom.inj (q5.mp h)) hx
          have p7 : e1 = some (o.ka, o.va) := by cases x <;> first | exact absurd rfl hx | exact p7
          rw [p7, h0]
          rfl
    obtain ⟨h', t', r1, r2, r3, r4, r5, r6, r7⟩ := C82_writes H r { vm with heap := h1 } t1 (fun x => if x = o.k then (if o.isNil then none else some o.va) else f x) p2 p3 p4 p5 (fun o' ho' => by
      obtain ⟨s1, s2, s3, c', s4, s5, s6⟩ := ho o' (List.mem_cons_of_mem _ ho')
      have ne : o'.ka ≠ ta := by
        intro h
        rw [h] at s1
        obtain ⟨m, a1, a2⟩ := s1
        obtain ⟨m', a3, a4⟩ := ht
        rw [a1] at a3
        cases a3
        rw [a2] at a4
        cases a4
      refine ⟨p9 _ _ ne s1, s2, s3, ?_⟩
      by_cases hv : o'.va = ta
      · refine ⟨.tab t1, by rw [hv]; exact p3, ?_, fun _ _ _ h => by cases h⟩
        have : c' = .tab t := by
          rw [hv] at s4
          obtain ⟨m, a1, a2⟩ := s4
          obtain ⟨m', a3, a4⟩ := ht
          rw [a1] at a3
          cases a3
          rw [← a2, a4]
        rw [s5, this]
        constructor <;> (intro h; cases h)
      · exact ⟨c', p9 _ _ hv s4, s5, s6⟩) (fun k sk => by
      by_cases hk : k = o.k
      · subst hk
        exact ⟨e1, p6, by rw [he, if_pos rfl]⟩
      · obtain ⟨e, g1, g2⟩ := hf k sk
        exact ⟨e, by rw [p8 k sk hk, g1], by rw [g2, if_neg hk]⟩)
    refine ⟨h', t', ?_, r2, r3, r4, r5, r6, fun a c ha hh => r7 a c ha (p9 a c ha hh)⟩
    simp only [tputs, p1, Res.ok_bind]
    exact r1

example : lastOf (fun _ => none) [⟨1, 5, .int 3, false⟩, ⟨1, 6, .int 4, false⟩, ⟨2, 7, .int 3, false⟩, ⟨2, 8, .int 4, true⟩] (.int 3) = some 7 ∧
    lastOf (fun _ => none) [⟨1, 5, .int 3, false⟩, ⟨1, 6, .int 4, false⟩, ⟨2, 7, .int 3, false⟩, ⟨2, 8, .int 4, true⟩] (.int 4) = none := ⟨rfl, rfl⟩

example : ∃ (vm : VM) (va ka ta : Nat) (t : Table.Tbl (Nat × Nat)), VInv vm ∧ vm.stack = va :: ka :: ta :: [] ∧ Holds vm.heap va (.clo true 0 []) ∧ Holds vm.heap ka (.atom (.int 3)) ∧ Holds vm.heap ta (.tab t) ∧
    Dict.WF Table.hashN Table.eqd t ∧ Table.Keys IsInt t ∧ IsInt (.int 3) ∧ KeyType (.atom (.int 3)) :=
  ⟨VM.push (VM.push (VM.push VM.new (.tab Table.new)) (.atom (.int 3))) (.clo true 0 []), 2, 1, 0, Table.new,
    ((VM.new_inv.push (c := .tab Table.new) (Buzz.Sim.cellOk_newTab _ _)).push (c := .atom (.int 3)) (show I32 3 by unfold I32; omega)).push (c := .clo true 0 []) ⟨(show I32 0 by unfold I32; omega), by intro a h; cases h⟩, rfl, ⟨_, rfl, rfl⟩, ⟨_, rfl, rfl⟩, ⟨_, rfl, rfl⟩,
    Dict.new_wf (by omega), by intro e he; simp [Table.new, Dict.entries_new] at he, ⟨3, rfl⟩, trivial⟩

example : ∃ vm : VM, At1 vm .tput ∧ vm.pc + 1 < vm.code.length ∧ vm.stack = [2, 1, 0] ∧ Holds vm.heap 2 (.clo true 0 []) ∧ Holds vm.heap 1 (.atom (.int 3)) ∧ Holds vm.heap 0 (.tab Table.new) := by
  have h : load host [0, 0, 31, 1] VM.new = .ok { VM.new with code := [0, 0, 31, 1], pc := 2, state := .ready } := rfl
  obtain ⟨i, _⟩ := load_inv (by decide) (fun n hn => by cases hn; decide) h
  exact ⟨_, ⟨((i.push (c := .tab Table.new) (Buzz.Sim.cellOk_newTab _ _)).push (c := .atom (.int 3)) (show I32 3 by unfold I32; omega)).push (c := .clo true 0 []) ⟨(show I32 0 by unfold I32; omega), by intro a h; cases h⟩,
    rfl, ⟨by decide, by decide⟩, 31, rfl, rfl⟩, by decide, rfl, ⟨_, rfl, rfl⟩, ⟨_, rfl, rfl⟩, ⟨_, rfl, rfl⟩⟩

example : ∃ vm : VM, At1 vm .tget ∧ vm.pc + 1 < vm.code.length ∧ vm.stack = [1, 0] ∧ Holds vm.heap 1 (.atom (.int 3)) ∧ Holds vm.heap 0 (.tab Table.new) ∧ Table.get host.sc (Table.new : Table.Tbl (Nat × Nat)) (.int 3) = .ok none := by
  have h : load host [0, 0, 32, 1] VM.new = .ok { VM.new with code := [0, 0, 32, 1], pc := 2, state := .ready } := rfl
  obtain ⟨i, _⟩ := load_inv (by decide) (fun n hn => by cases hn; decide) h
  exact ⟨_, ⟨(i.push (c := .tab Table.new) (Buzz.Sim.cellOk_newTab _ _)).push (c := .atom (.int 3)) (show I32 3 by unfold I32; omega),
    rfl, ⟨by decide, by decide⟩, 32, rfl, rfl⟩, by decide, rfl, ⟨_, rfl, rfl⟩, ⟨_, rfl, rfl⟩, by decide +kernel⟩

/-- The conditions of `C82_writes` hold of the writes `t[3] = t` and `t[3] = 3` to an empty table. -/
example : ∃ vm : VM, VInv vm ∧ Holds vm.heap 0 (.tab Table.new) ∧ ∀ o ∈ [(⟨1, 0, .int 3, false⟩ : Wr), ⟨1, 1, .int 3, false⟩], WrOk IsInt vm.heap o := by
  refine ⟨VM.push (VM.push VM.new (.tab Table.new)) (.atom (.int 3)), (VM.new_inv.push (c := .tab Table.new) (Buzz.Sim.cellOk_newTab _ _)).push (c := .atom (.int 3)) (show I32 3 by unfold I32; omega),
    ⟨_, rfl, rfl⟩, fun o ho => ?_⟩
  simp only [List.mem_cons, List.not_mem_nil, or_false] at ho
  rcases ho with rfl | rfl
  · exact ⟨⟨_, rfl, rfl⟩, ⟨3, rfl⟩, trivial, _, ⟨_, rfl, rfl⟩, by simp, fun _ _ _ h => by cases h⟩
  · exact ⟨⟨_, rfl, rfl⟩, ⟨3, rfl⟩, trivial, _, ⟨_, rfl, rfl⟩, by simp, fun _ _ _ h => by cases h⟩

end Buzz.Props
