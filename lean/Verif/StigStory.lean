import Verif.StigSim

/-
Stigmergies over a whole execution: steps of scripts, calls of the methods, creation, messages that arrive and leave.
-/
namespace Buzz.VM

open Buzz.F32 Buzz.Msg Buzz.Heap Buzz.Props Buzz.HeapWire Buzz.OutMsg Buzz.Vstig Buzz.Value

/-! ### Keys -/

/-- All keys are numbers, or all are strings. -/
inductive Kind where
  | ints
  | strs

/-- A key of the kind, whose string is in the table. -/
def KeyOk (kd : Kind) (sm : SM) : Obj → Prop
  | .int _ => kd = .ints
  | .str sid s => kd = .strs ∧ Strman.get sm sid = some s ∧ Obj.CStr s
  | _ => False

/-- A key of the kind. -/
def OfKind (kd : Kind) : Obj → Prop
  | .int _ => kd = .ints
  | .str _ s => kd = .strs ∧ Obj.CStr s
  | _ => False

theorem keyOk_of {kd : Kind} {vm : VM} (i : VInv vm) {a : Nat} {k : Obj} (h : Holds vm.heap a (.atom k)) (hk : OfKind kd k) : KeyOk kd vm.strings k := by
  have := i.cells _ _ h
  cases k with
  | str sid s => exact ⟨hk.1, this, hk.2⟩
  | int v => exact hk
  | _ => exact hk

theorem KeyOk.kind {kd : Kind} {sm : SM} {k : Obj} (h : KeyOk kd sm k) : OfKind kd k := by
  cases k with
  | str sid s => exact ⟨h.1, h.2.2⟩
  | int v => exact h
  | _ => exact h

theorem key_homog {sc : Bytes → Bytes → Int} (law : Obj.StrcmpLaw sc) {sm : SM} (i : Strman.Inv sm) (kd : Kind) : Table.Homog sc (KeyOk kd sm) where
  hash k hk := by
    cases k with
    | int v => exact ⟨_, rfl⟩
    | str j s => exact ⟨_, rfl⟩
    | _ => exact hk.elim
  cmp a b ha hb := by
    cases a with
    | int v =>
      cases b with
      | int w => exact (C13_int_keys sc).cmp _ _ ⟨v, rfl⟩ ⟨w, rfl⟩
      | str j s =>
        have h1 : kd = .ints := ha
        have h2 : kd = .strs := hb.1
        rw [h1] at h2; cases h2
      | _ => exact hb.elim
    | str j s =>
      cases b with
      | int w =>
        have h1 : kd = .ints := hb
        have h2 : kd = .strs := ha.1
        rw [h1] at h2; cases h2
      | str j' s' =>
        refine ⟨_, rfl, ?_⟩
        rw [law.zero s s' ha.2.2 hb.2.2]
        constructor
        · rintro rfl
          rw [same_id i ha.2.1 hb.2.1]
        · intro h; rw [Obj.str.injEq] at h; exact h.2
      | _ => exact hb.elim
    | _ => exact ha.elim

variable {S S' : Obj → Prop} {me : Nat} {h h' : Heap} {o : Other} {s : Vstig.St Unit Obj Obj} {kd : Kind} {E : Env}

/-- Another set of keys. -/
theorem Mirror.resort (m : Mirror S me h o s) (hS : ∀ a x, StigHas o a → S x → Holds h a (.atom x) → S' x) : Mirror S' me h o s where
  me := m.me
  inv := m.inv
  only := m.only
  stigs id := by
    have := m.stigs id
    cases h1 : FMap.get o.vstigs id with
    | none =>
      rw [h1] at this
      cases h2 : FMap.get s.vstigs id with
      | none => trivial
      | some vs => rw [h2] at this; exact this.elim
    | some st =>
      rw [h1] at this
      cases h2 : FMap.get s.vstigs id with
      | none => rw [h2] at this; exact this
      | some vs =>
        rw [h2] at this
        have this : StigIs S h st vs := this
        exact { this with keys := fun e he => hS e.2.key e.1 (.inl ⟨_, FMap.mem_of_get h1, e, he, .inl rfl⟩) (this.keys e he) (this.atoms e he).1 }
  puts := m.puts
  queries := m.queries
  msgs x hx := ⟨hS _ _ (.inr ⟨x, hx, .inl rfl⟩) (m.msgs x hx).1 (m.msgs x hx).2.1, (m.msgs x hx).2⟩

/-- The stigmergies of the machine `vm` of robot `me`, whose keys are of one kind, and the queues of their messages, are those of `s`. -/
def Shows (kd : Kind) (me : Nat) (vm : VM) (s : Vstig.St Unit Obj Obj) : Prop := Mirror (KeyOk kd vm.strings) me vm.heap vm.other s

/-- Only stigmergies and queues of the other state matter. -/
theorem Mirror.other {o' : Other} (m : Mirror S me h o s) (h1 : o'.vstigs = o.vstigs) (h2 : o'.puts = o.puts) (h3 : o'.queries = o.queries) : Mirror S me h o' s where
  me := m.me
  inv := m.inv
  only := m.only
  stigs id := by rw [h1]; exact m.stigs id
  puts := by rw [h2]; exact m.puts
  queries := by rw [h3]; exact m.queries
  msgs := by rw [h2, h3]; exact m.msgs

/-- Whatever happened between, stigmergies and queues are untouched, and so are the numbers and strings in them. -/
structure Quiet (vm vm' : VM) : Prop where
  inv : VInv vm'
  vstigs : vm'.other.vstigs = vm.other.vstigs
  puts : vm'.other.puts = vm.other.puts
  queries : vm'.other.queries = vm.other.queries
  atoms : ∀ a, StigHas vm.other a → ∀ x, Holds vm.heap a (.atom x) → Holds vm'.heap a (.atom x)

/-- Nothing but the machine has moved. -/
structure Still (vm vm' : VM) : Prop where
  quiet : Quiet vm vm'
  other : vm'.other = vm.other

theorem Quiet.has {vm vm' : VM} (q : Quiet vm vm') {a : Nat} : StigHas vm'.other a ↔ StigHas vm.other a := by
  unfold StigHas
  rw [q.vstigs, q.puts, q.queries]

theorem Quiet.trans {u v w : VM} (q : Quiet u v) (r : Quiet v w) : Quiet u w where
  inv := r.inv
  vstigs := r.vstigs.trans q.vstigs
  puts := r.puts.trans q.puts
  queries := r.queries.trans q.queries
  atoms a ha x hx := r.atoms a (q.has.mpr ha) x (q.atoms a ha x hx)

theorem Still.trans {u v w : VM} (q : Still u v) (r : Still v w) : Still u w := ⟨q.quiet.trans r.quiet, r.other.trans q.other⟩

theorem Quiet.shows {vm vm' : VM} (q : Quiet vm vm') (m : Shows kd me vm s) : Shows kd me vm' s := by
  have m1 : Mirror (KeyOk kd vm.strings) me vm'.heap vm.other s := Mirror.mono m q.atoms
  have m2 : Mirror (KeyOk kd vm.strings) me vm'.heap vm'.other s := m1.other q.vstigs q.puts q.queries
  exact m2.resort fun a x _ hx hh => keyOk_of q.inv hh hx.kind

/-! ### Steps -/

theorem has_root {vm : VM} {a : Nat} (h : StigHas vm.other a) : (roots vm).Mem a := by
  unfold Roots.Mem roots Stig.roots
  simp only
  rcases h with ⟨e, he, x, hx, hax⟩ | ⟨m, hm, ha⟩
  · exact .inr (.inr (.inr (.inl ⟨_, List.mem_map_of_mem he, .inr (.inr ⟨_, List.mem_map_of_mem hx, hax⟩)⟩)))
  · rcases List.mem_append.mp hm with hm | hm
    · exact .inr (.inr (.inr (.inr (.inr (.inr (.inl ⟨_, List.mem_map_of_mem hm, ha⟩))))))
    · exact .inr (.inr (.inr (.inr (.inr (.inr (.inr ⟨_, List.mem_map_of_mem hm, ha⟩))))))

theorem exec_noF {F F' : CFuns} {vm : VM} {op : Op} (h : op ∉ [Op.callc, .calls]) : exec E F vm op = exec E F' vm op := by
  cases op <;> first | rfl | simp at h

/-- The machine has entered a C function: it takes `as` as arguments, `l` comes with the closure. -/
structure EntersC (vm u : VM) (n : Nat) (l as : List Nat) : Prop where
  clo : At vm (as.length + 1) (.clo false (n : Int) l)
  ready : u.state = .ready
  inv : VInv u
  syms : ∃ sw, u.frames = ⟨l ++ as, sw⟩ :: vm.frames
  back : ∃ p, u.rest = (p :: vm.stack.drop (as.length + 3)) :: vm.rest ∧ Holds u.heap p (.atom (.int (vm.pc + 1)))

theorem enter_quiet {vm : VM} (i : VInv vm) (n : Nat) {l : List Nat} (sw : Bool) (hl : ∀ a ∈ l, Live vm.heap a) : Quiet vm (enter vm n l sw) where
  inv := i.enter _ _ hl
  vstigs := rfl
  puts := rfl
  queries := rfl
  atoms _ _ _ hx := holds_old i.heap hx

theorem call_shape {F : CFuns} {vm w : VM} {sw : Bool} (i : VInv vm) (hr : vm.state = .ready) (h : call F sw vm = .ok w) (hw : w.state = .ready) :
    Still vm w ∨ ∃ u n l as, Still vm u ∧ F n u = .ok w ∧ At vm (as.length + 1) (.clo false (n : Int) l) ∧ u.state = .ready ∧ VInv u ∧
      (u.frames = ⟨l ++ as, sw⟩ :: vm.frames) ∧ ∃ p, u.rest = (p :: vm.stack.drop (as.length + 3)) :: vm.rest ∧ Holds u.heap p (.atom (.int vm.pc)) := by
  unfold call need at h
  split at h
  · cases h; cases hw
  rename_i hl
  obtain ⟨a1, c1, g1, k1, q1, r1, p1⟩ := peek_ok i (n := 0) (by omega)
  simp only [Nat.zero_add, Nat.cast_one] at p1
  rw [p1, Res.ok_bind] at h
  split at h
  · rename_i argn hv
    simp only at h
    split at h
    · cases h
    · split at h
      · cases h; cases hw
      · rename_i hlen
        obtain ⟨c, hc, h⟩ := Res.bind_eq_ok.mp h
        have hn : 0 ≤ argn := by
          by_contra hneg
          unfold peekCell peekAddr at hc
          rw [if_neg (by omega)] at hc
          cases hc
        split at h
        · rename_i native ref actrec
          split at h
          · cases h; cases hw
          · rename_i hnf
            have hcl : At vm (argn.toNat + 1) (.clo native ref actrec) := by
              have hp : (popN vm 1).stack.length ≥ argn.toNat + 1 := by omega
              obtain ⟨a, c', g, k, q, r, p⟩ := peek_ok (i.popN 1) (n := argn.toNat) (by omega)
              have : ((argn.toNat + 1 : Nat) : Int) = argn + 1 := by omega
              rw [this] at r
              rw [r] at hc
              cases hc
              refine ⟨a, ?_, k⟩
              unfold popN at g
              rw [List.getElem?_drop] at g
              rw [← g, Nat.add_comm]
            obtain ⟨ca, hca, hcb⟩ := hcl
            have hc2 : ∀ b ∈ actrec, Live vm.heap b := (i.cells ca _ hcb).2
            have q3 : Quiet (popN vm 1) (enter (popN vm 1) argn.toNat actrec sw) := enter_quiet (i.popN 1) _ sw hc2
            have q4 : Still vm (enter (popN vm 1) argn.toNat actrec sw) := ⟨⟨q3.inv, q3.vstigs, q3.puts, q3.queries, q3.atoms⟩, rfl⟩
            split at h
            · rename_i hnat
              cases h
              refine .inl ⟨⟨?_, q4.quiet.vstigs, q4.quiet.puts, q4.quiet.queries, q4.quiet.atoms⟩, rfl⟩
              exact q4.quiet.inv.setPc (i.cells ca _ hcb).1
            · rename_i hnat
              split at h
              · cases h
              · rename_i href
                have hnat : native = false := by simpa using hnat
                subst hnat
                have hla : (((popN vm 1).stack.take argn.toNat).reverse).length = argn.toNat := by
                  rw [List.length_reverse, List.length_take]
                  omega
                refine .inr ⟨_, ref.toNat, actrec, ((popN vm 1).stack.take argn.toNat).reverse, q4, h, ?_, hr, q4.quiet.inv, rfl, (newobj vm.heap (.atom (.int vm.pc))).2, ?_, ?_⟩
                · rw [hla, Int.toNat_of_nonneg (by omega)]
                  exact ⟨ca, hca, hcb⟩
                · rw [hla]
                  show ((newobj vm.heap (.atom (.int vm.pc))).2 :: ((vm.stack.drop 1).drop (argn.toNat + 2))) :: vm.rest = _
                  rw [List.drop_drop]
                  congr 3
                  omega
                · exact holds_new i.heap _
        · cases h; cases hw
  · cases h; cases hw

/-- A step of the machine leaves everything else alone or calls a C function. -/
theorem step_shape {F : CFuns} {vm w : VM} (i : VInv vm) (hr : vm.state = .ready) (h : step E F vm = .ok w) (hw : w.state = .ready) :
    Still vm w ∨ ∃ u n l as, Still vm u ∧ F n u = .ok w ∧ EntersC vm u n l as := by
  obtain ⟨hp, _⟩ := step_moved i hr h hw
  obtain ⟨h', sm', e, j, hb, hk, hst⟩ := collect_spec i
  have q0 : Still vm { vm with heap := h', strings := sm' } := ⟨⟨j, rfl, rfl, rfl, fun a ha x hx => hk a _ hx (.root (has_root ha))⟩, rfl⟩
  unfold step at h
  rw [if_neg (by simp [hr]), e, Res.ok_bind] at h
  obtain ⟨n, hn, h⟩ := Res.bind_eq_ok.mp h
  cases ho : opcodes[n]? with
  | none => rw [ho] at h; simp only [Res.pure_eq, Res.ok.injEq] at h; subst h; cases hw
  | some op =>
    rw [ho] at h
    have h : exec E F { vm with heap := h', strings := sm' } op = .ok w := h
    by_cases hc : op ∈ [Op.callc, .calls]
    · have cs : ∀ sw, (incPc { vm with heap := h', strings := sm' } (fun vm => do
          let vm ← call F sw vm
          ifReady vm (fun vm => assertPc vm pure))) = .ok w → Still vm w ∨ ∃ u n l as, Still vm u ∧ F n u = .ok w ∧ EntersC vm u n l as := by
        intro sw h
        unfold incPc assertPc at h
        simp only at h
        split at h
        · cases h; cases hw
        · rename_i hpc
          obtain ⟨x, h1, h2⟩ := Res.bind_eq_ok.mp h
          have hxw : w = x := by
            unfold ifReady at h2
            split at h2
            · simp only at h2
              split at h2
              · cases h2; cases hw
              · cases h2; rfl
            · cases h2; rfl
          subst hxw
          have j' : VInv { vm with heap := h', strings := sm', pc := vm.pc + 1 } :=
            VInv.setPc (vm := { vm with heap := h', strings := sm' }) j (by have := i.size; unfold I32; omega)
          have q1 : Still vm { vm with heap := h', strings := sm', pc := vm.pc + 1 } := ⟨⟨j', q0.quiet.vstigs, q0.quiet.puts, q0.quiet.queries, q0.quiet.atoms⟩, rfl⟩
          rcases call_shape j' hr h1 hw with q | ⟨u, n, l, as, q, hF, ⟨ca, a1, a2⟩, r1, r2, r3, p, r4, r5⟩
          · exact .inl (q1.trans q)
          · exact .inr ⟨u, n, l, as, q1.trans q, hF, ⟨ca, a1, hb _ _ a2⟩, r1, r2, ⟨sw, r3⟩, p, r4, r5⟩
      simp only [List.mem_cons, List.not_mem_nil, or_false] at hc
      rcases hc with rfl | rfl
      · exact cs false h
      · exact cs true h
    · rw [exec_noF (F' := fun _ _ => .ub) hc] at h
      have m := exec_moved (E := E) (F := fun _ _ => .ub) (vm := { vm with heap := h', strings := sm' }) j hp op
      rw [h] at m
      have iw : VInv w := by
        have := exec_out (E := E) (F := fun _ _ => .ub) (fun _ _ _ _ _ h => by cases h) (vm := { vm with heap := h', strings := sm' }) j hp hr op
        rw [h] at this
        exact this.1
      have fin : w.other = vm.other → AtomsKept h' w.heap → Still vm w := fun e k =>
        q0.trans ⟨⟨iw, by rw [e], by rw [e], by rw [e], fun a _ x hx => k a x hx⟩, e⟩
      rcases m hw with ⟨f, _⟩ | ⟨hop, _⟩ | ⟨hop, en⟩ | ⟨hop, _⟩
      · exact .inl (fin f.other f.atoms)
      · rename_i b
        exact .inl (fin b.other b.atoms)
      · exact .inl (fin en.other en.atoms)
      · exact absurd hop hc

/-! ### Messages -/

/-- The value stands for the number, string or nil. -/
inductive AtomVal : Obj → Value.Val → Prop where
  | nil : AtomVal .nil .nil
  | int (v : Int) : AtomVal (.int v) (.int v)
  | flt (f : Flt) : AtomVal (.flt f) (.flt f)
  | str (sid : Nat) (s : Bytes) : AtomVal (.str sid s) (.str s)

/-- A number, string or nil. -/
def Plain1 : Value.Val → Prop
  | .nil => True
  | .int _ => True
  | .flt _ => True
  | .str _ => True
  | _ => False

/-- The bytes of a message about an entry: key and value have been written as `bk` and `bd`. -/
def stigBytes (t : VType) (id : Nat) (bk bd : Bytes) (ts robot : Nat) : Bytes :=
  ser8 (stigTag t) ++ ser16 .little id ++ bk ++ bd ++ ser16 .little ts ++ ser16 .little robot

theorem hser_atom {h : Heap} {d a : Nat} {o : Obj} {v : Value.Val} (hh : Holds h a (.atom o)) (hv : AtomVal o v) : hser h (d + 1) a = ser v := by
  obtain ⟨m, g1, g2⟩ := holds_deref hh
  unfold hser
  rw [g1, Res.ok_bind]
  simp only [g2]
  cases hv <;> rfl

theorem repr_atom {h : Heap} {lo a : Nat} {v : Value.Val} (r : Repr h lo a v) (hv : Plain1 v) : ∃ o, Holds h a (.atom o) ∧ AtomVal o v := by
  cases r with
  | nil _ h => exact ⟨_, h, .nil⟩
  | int _ h => exact ⟨_, h, .int _⟩
  | flt _ h => exact ⟨_, h, .flt _⟩
  | str _ h => exact ⟨_, h, .str _ _⟩
  | user _ h => exact hv.elim
  | table _ _ _ _ => exact hv.elim
  | clo _ h => exact hv.elim

theorem plain_bools {v : Value.Val} (h : Plain1 v) : Bools v := by
  cases v <;> first | trivial | exact h.elim

theorem plain_depth {v : Value.Val} (h : Plain1 v) : depth v ≤ 1 ∧ strs v ≤ 1 := by
  cases v <;> first | exact h.elim | simp [depth, strs]

/-- Reading an entry from its bytes. -/
theorem entry_read {sc : Bytes → Bytes → Int} {vm : VM} (i : VInv vm) {t : VType} {id ts robot : Nat} {kv dv : Value.Val} {bk bd : Bytes} (hkp : Plain1 kv) (hdp : Plain1 dv)
    (hkw : WireOk (realKeq sc) kv) (hdw : WireOk (realKeq sc) dv) (hk : ser kv = .ok bk) (hd : ser dv = .ok bd) (hz : vm.strings.id2str.length + 2 ≤ 65534) :
    ∃ h1 sm1 a h2 sm2 b, hdeser sc (stigBytes t id bk bd ts robot) ((stigBytes t id bk bd ts robot).length + 1) 3 vm.heap vm.strings = .ok ⟨h1, sm1, some a, some (3 + bk.length)⟩ ∧
      hdeser sc (stigBytes t id bk bd ts robot) ((stigBytes t id bk bd ts robot).length + 1) (3 + bk.length) h1 sm1 = .ok ⟨h2, sm2, some b, some (3 + bk.length + bd.length)⟩ ∧
      Grow vm.heap vm.strings h2 sm2 ∧ VInv { vm with heap := h2, strings := sm2 } ∧ sm2.id2str.length ≤ vm.strings.id2str.length + 2 ∧
      (∃ k, Holds h2 a (.atom k) ∧ AtomVal k kv) ∧ ∃ d, Holds h2 b (.atom d) ∧ AtomVal d dv := by
  obtain ⟨h1, sm1, a, e1, l1⟩ := hdeser_ser sc kv hkw (plain_bools hkp) bk hk ((stigBytes t id bk bd ts robot).length + 1) (by have := (plain_depth hkp).1; omega)
    (ser8 (stigTag t) ++ ser16 .little id) (bd ++ ser16 .little ts ++ ser16 .little robot) vm.heap vm.strings (winv i)
    (by have := (plain_depth hkp).2; omega)
  obtain ⟨h2, sm2, b, e2, l2⟩ := hdeser_ser sc dv hdw (plain_bools hdp) bd hd ((stigBytes t id bk bd ts robot).length + 1) (by have := (plain_depth hdp).1; omega)
    (ser8 (stigTag t) ++ ser16 .little id ++ bk) (ser16 .little ts ++ ser16 .little robot) h1 sm1 l1.inv
    (by have := (plain_depth hdp).2; have := (plain_depth hkp).2; have := l1.count; omega)
  have g : Grow vm.heap vm.strings h2 sm2 := ⟨l1.grow.ext.trans l2.grow.ext, fun j x h => l2.grow.strs j x (l1.grow.strs j x h)⟩
  obtain ⟨k, k1, k2⟩ := repr_atom l1.repr hkp
  refine ⟨h1, sm1, a, h2, sm2, b, ?_, ?_, g, vinv_grow i l2.inv g, ?_, ⟨k, Ext.holds l1.inv.heap l2.grow.ext k1, k2⟩, repr_atom l2.repr hdp⟩
  · have : stigBytes t id bk bd ts robot = (ser8 (stigTag t) ++ ser16 .little id) ++ bk ++ (bd ++ ser16 .little ts ++ ser16 .little robot) := by
      simp only [stigBytes, List.append_assoc]
    rw [this]
    rw [this] at e1
    have hl : (ser8 (stigTag t) ++ ser16 .little id).length = 3 := by simp [ser8_length, ser16_length]
    rw [hl] at e1
    exact e1
  · have : stigBytes t id bk bd ts robot = (ser8 (stigTag t) ++ ser16 .little id ++ bk) ++ bd ++ (ser16 .little ts ++ ser16 .little robot) := by
      simp only [stigBytes, List.append_assoc]
    rw [this]
    rw [this] at e2
    have hl : (ser8 (stigTag t) ++ ser16 .little id ++ bk).length = 3 + bk.length := by simp [ser8_length, ser16_length]; omega
    rw [hl] at e2
    exact e2
  · have := (plain_depth hdp).2
    have := (plain_depth hkp).2
    have := l1.count
    have := l2.count
    omega

theorem header_read (t : VType) {id ts robot : Nat} {bk bd : Bytes} (hid : id < 65536) :
    deser16 .little (stigBytes t id bk bd ts robot) 1 = .ok (some (id, 3)) := by
  have := deser16_ser id hid (ser8 (stigTag t)) (bk ++ bd ++ ser16 .little ts ++ ser16 .little robot)
  simp only [List.append_assoc] at this
  simp only [stigBytes, List.append_assoc]
  exact this

theorem trailer_read (t : VType) {id ts robot : Nat} {bk bd : Bytes} (hts : ts < 65536) (hrob : robot < 65536) :
    deser16 .little (stigBytes t id bk bd ts robot) (3 + bk.length + bd.length) = .ok (some (ts, 3 + bk.length + bd.length + 2)) ∧
    deser16 .little (stigBytes t id bk bd ts robot) (3 + bk.length + bd.length + 2) = .ok (some (robot, 3 + bk.length + bd.length + 2 + 2)) := by
  have h1 := deser16_ser ts hts (ser8 (stigTag t) ++ ser16 .little id ++ bk ++ bd) (ser16 .little robot)
  have h2 := deser16_ser robot hrob (ser8 (stigTag t) ++ ser16 .little id ++ bk ++ bd ++ ser16 .little ts) []
  have l1 : (ser8 (stigTag t) ++ ser16 .little id ++ bk ++ bd).length = 3 + bk.length + bd.length := by simp [ser8_length, ser16_length]; omega
  have l2 : (ser8 (stigTag t) ++ ser16 .little id ++ bk ++ bd ++ ser16 .little ts).length = 3 + bk.length + bd.length + 2 := by simp [ser8_length, ser16_length]; omega
  rw [l1] at h1
  rw [l2, List.append_nil] at h2
  exact ⟨h1, h2⟩

/-- The stigmergies before and after something that is no method. -/
theorem Done.shows {vm vm' : VM} {s' : Vstig.St Unit Obj Obj} (d : Done (KeyOk kd vm.strings) me vm vm' s') : Shows kd me vm' s' := by
  have : vm'.strings = vm.strings := by rw [d.eq]
  unfold Shows
  rw [this]
  exact d.mirror

/-- A string is the one of the table with its number. -/
def StrOk (sm : SM) : Obj → Prop
  | .str j x => Strman.get sm j = some x
  | _ => True

theorem strOk_of {vm : VM} (i : VInv vm) {a : Nat} {k : Obj} (h : Holds vm.heap a (.atom k)) : StrOk vm.strings k := by
  have := i.cells _ _ h
  cases k with
  | str sid s => exact this
  | _ => trivial

/-- The arrival of a message. -/
theorem arrive_sim (law : Obj.StrcmpLaw E.sc) {mgr : Nat → VElem → VElem → VM → Res (VM × Option VElem)} {hook : Nat → VElem → VM → Res VM} {vm : VM}
    (i : VInv vm) (m : Shows kd me vm s) {t : VType} {id ts robot : Nat} {kv dv : Value.Val} {bk bd : Bytes} (hkp : Plain1 kv) (hdp : Plain1 dv)
    (hkd : ∀ k, AtomVal k kv → OfKind kd k) (hkw : WireOk (realKeq E.sc) kv) (hdw : WireOk (realKeq E.sc) dv) (hk : ser kv = .ok bk) (hd : ser dv = .ok bd)
    (hid : id < 65536) (hts : ts < 65536) (hrob : robot < 65536) (hz : vm.strings.id2str.length + 2 ≤ 65534) :
    ∃ w s' k d, onStig E me mgr hook t (stigBytes t id bk bd ts robot) vm = .ok w ∧ AtomVal k kv ∧ AtomVal d dv ∧
      Vstig.recv .nil s t id k ⟨d, ts, robot⟩ = .ok s' ∧ Shows kd me w s' ∧ VInv w ∧
      w = { vm with heap := w.heap, strings := w.strings, other := w.other } ∧ w.other.listeners = vm.other.listeners ∧ w.other.bcasts = vm.other.bcasts ∧
      (∀ a c, Holds vm.heap a c → Holds w.heap a c) ∧ (∀ j x, Strman.get vm.strings j = some x → Strman.get w.strings j = some x) ∧
      w.strings.id2str.length ≤ vm.strings.id2str.length + 2 ∧
      ((t = .put ∧ FMap.get vm.other.vstigs id = none) ∨ (StrOk w.strings k ∧ StrOk w.strings d)) := by
  obtain ⟨h1, sm1, a, h2, sm2, b, e1, e2, g, iv, hlen, ⟨k, k1, k2⟩, d, d1, d2⟩ := entry_read (t := t) (id := id) (ts := ts) (robot := robot) i hkp hdp hkw hdw hk hd hz
  have m2 : Shows kd me { vm with heap := h2, strings := sm2 } s :=
    (show Quiet vm { vm with heap := h2, strings := sm2 } from ⟨iv, rfl, rfl, rfl, fun a _ x hx => Ext.holds i.heap g.ext hx⟩).shows m
  obtain ⟨t1, t2⟩ := trailer_read t (id := id) (bk := bk) (bd := bd) hts hrob
  by_cases hput : t = .put ∧ (FMap.get vm.other.vstigs id).isNone = true
  · refine ⟨vm, s, k, d, ?_, k2, d2, ?_, m, i, rfl, rfl, rfl, fun _ _ h => h, fun _ _ h => h, by omega, .inl ⟨hput.1, Option.isNone_iff_eq_none.mp hput.2⟩⟩
    · unfold onStig
      rw [header_read t hid, Res.ok_bind]
      simp only
      rw [if_pos hput]
      rfl
    · obtain ⟨rfl, hn⟩ := hput
      show Vstig.recvPut .nil s id k ⟨d, ts, robot⟩ = .ok s
      unfold Vstig.recvPut
      rw [stigs_none m (Option.isNone_iff_eq_none.mp hn)]
  · obtain ⟨w, s', r1, r2, r3⟩ := recv_sim (mgr := mgr) (hook := hook) (key_homog law iv.strings kd) iv m2 t id (v := ⟨a, b, ts, robot⟩) k1 (keyOk_of iv k1 (hkd k k2)) d1
    have hs : w.strings = sm2 := by rw [r3.eq]
    refine ⟨w, s', k, d, ?_, k2, d2, r2, r3.shows, r3.inv, ?_, r3.listeners, r3.bcasts, fun x c h => r3.kept _ _ (Ext.holds i.heap g.ext h),
      fun j x h => by rw [hs]; exact g.strs j x h, by rw [hs]; exact hlen, .inr (by rw [hs]; exact ⟨strOk_of iv k1, strOk_of iv d1⟩)⟩
    · unfold onStig
      rw [header_read t hid, Res.ok_bind]
      simp only
      rw [if_neg hput, e1, Res.ok_bind]
      simp only
      rw [e2, Res.ok_bind]
      simp only
      rw [t1, Res.ok_bind]
      simp only
      rw [t2, Res.ok_bind]
      exact r1
    · rw [r3.eq]

/-- The queue of the type. -/
def queueOf (t : VType) (o : Other) : List StigMsg :=
  match t with
  | .put => o.puts
  | .query => o.queries

/-- The bytes of a message made of what the queue has. -/
theorem payload_eq {vm : VM} (m : Shows kd me vm s) {t : VType} {x : StigMsg} (hx : x ∈ queueOf t vm.other) {v : Value.Val} {kv : Value.Val} {bk bd : Bytes}
    (hk : AtomVal x.k kv) (hd : AtomVal (objAt vm.heap x.e.data) v) (hbk : ser kv = .ok bk) (hbd : ser v = .ok bd) (d : Nat) :
    stigPayload vm.heap (d + 1) t x = .ok (stigBytes t x.id bk bd x.e.ts x.e.robot) := by
  have hx : x ∈ vm.other.puts ++ vm.other.queries := by
    cases t
    · exact List.mem_append_left _ hx
    · exact List.mem_append_right _ hx
  obtain ⟨_, h1, y, h2⟩ := m.msgs x hx
  rw [objAt_holds h2] at hd
  unfold stigPayload
  rw [hser_atom h1 hk, hbk, Res.ok_bind, hser_atom h2 hd, hbd, Res.ok_bind]
  rfl

/-- Both queues have the same first message; what leaves the machine leaves the other. -/
theorem sent_sim {vm : VM} (i : VInv vm) (m : Shows kd me vm s) {t : VType} {x : StigMsg} {l : List StigMsg} (hq : queueOf t vm.other = x :: l) (hp : t = .query → vm.other.puts = []) :
    ∃ q', OutMsg.first s.out = some (.vstig t x.id x.k (seen vm.heap x.e)) ∧ OutMsg.next s.out = .ok q' ∧
      Shows kd me { vm with other := stigSent t vm.other } { s with out := q' } ∧ VInv { vm with other := stigSent t vm.other } := by
  obtain ⟨q', n1, n2, _⟩ := next_spec m.inv
  have frest : ∀ {q : Q Unit Obj Obj} {y : VMsg Obj Obj} {q1 : Q Unit Obj Obj}, OutMsg.forget q y = .ok q1 → q1.put = q.put ∧ q1.query = q.query ∧ q1.bc = q.bc ∧ q1.list = q.list := by
    intro q y q1 h
    unfold OutMsg.forget at h
    split at h
    · cases h
    · cases h; exact ⟨rfl, rfl, rfl, rfl⟩
  have ok : OtherOk vm.heap (stigSent t vm.other) := by
    cases t
    · exact ⟨i.other.vstigs, i.other.listeners, i.other.bcasts, fun y hy => i.other.puts y (List.mem_of_mem_tail hy), i.other.queries⟩
    · exact ⟨i.other.vstigs, i.other.listeners, i.other.bcasts, i.other.puts, fun y hy => i.other.queries y (List.mem_of_mem_tail hy)⟩
  cases t with
  | put =>
    have hq : vm.other.puts = x :: l := hq
    have hp := m.puts
    rw [hq, List.map_cons] at hp
    cases hs : s.out.put with
    | nil => rw [hs] at hp; cases hp
    | cons y r =>
      rw [hs, List.map_cons, List.cons.injEq] at hp
      obtain ⟨hy, hr⟩ := hp
      have n0 := n1
      unfold OutMsg.next at n0
      simp only [m.only.1, m.only.2, hs] at n0
      obtain ⟨q1, f1, f2⟩ := Res.bind_eq_ok.mp n0
      cases f2
      obtain ⟨g1, g2, g3, g4⟩ := frest f1
      refine ⟨_, ?_, n1, ⟨m.me, n2, ⟨g3.trans m.only.1, g4.trans m.only.2⟩, m.stigs, ?_, ?_, ?_⟩, { i with other := ok }⟩
      · unfold OutMsg.first
        simp only [m.only.1, m.only.2, hs]
        unfold msgOf seenMsg at hy
        simp only [Prod.mk.injEq] at hy
        rw [hy.1, hy.2.1, hy.2.2]
      · show r.map msgOf = vm.other.puts.tail.map _
        rw [hq]; exact hr
      · show q1.query.map msgOf = _
        rw [g2]; exact m.queries
      · intro z hz
        refine m.msgs z ?_
        have hz : z ∈ vm.other.puts.tail ++ vm.other.queries := hz
        rcases List.mem_append.mp hz with hz | hz
        · exact List.mem_append_left _ (List.mem_of_mem_tail hz)
        · exact List.mem_append_right _ hz
  | query =>
    have hq : vm.other.queries = x :: l := hq
    have hp0 := hp rfl
    have hpn : s.out.put = [] := by
      have := m.puts
      rw [hp0] at this
      simpa using this
    have hp := m.queries
    rw [hq, List.map_cons] at hp
    cases hs : s.out.query with
    | nil => rw [hs] at hp; cases hp
    | cons y r =>
      rw [hs, List.map_cons, List.cons.injEq] at hp
      obtain ⟨hy, hr⟩ := hp
      have n0 := n1
      unfold OutMsg.next at n0
      simp only [m.only.1, m.only.2, hs, hpn] at n0
      obtain ⟨q1, f1, f2⟩ := Res.bind_eq_ok.mp n0
      cases f2
      obtain ⟨g1, g2, g3, g4⟩ := frest f1
      refine ⟨_, ?_, n1, ⟨m.me, n2, ⟨g3.trans m.only.1, g4.trans m.only.2⟩, m.stigs, ?_, ?_, ?_⟩, { i with other := ok }⟩
      · unfold OutMsg.first
        simp only [m.only.1, m.only.2, hs, hpn]
        unfold msgOf seenMsg at hy
        simp only [Prod.mk.injEq] at hy
        rw [hy.1, hy.2.1, hy.2.2]
      · show q1.put.map msgOf = _
        rw [g1]; exact m.puts
      · show r.map msgOf = vm.other.queries.tail.map _
        rw [hq]; exact hr
      · intro z hz
        refine m.msgs z ?_
        have hz : z ∈ vm.other.puts ++ vm.other.queries.tail := hz
        rcases List.mem_append.mp hz with hz | hz
        · exact List.mem_append_left _ hz
        · exact List.mem_append_right _ (List.mem_of_mem_tail hz)

end Buzz.VM
