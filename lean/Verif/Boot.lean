import Verif.Whole
import Verif.SimStat

/-
Loading the bytecode of a program: its strings get their numbers, its functions are defined, and the machine stops before the first
statement.
-/
namespace Buzz.Sim

open Buzz.Msg Buzz.Heap Buzz.Props Buzz.VM
open Buzz.Lang (Ast Thing Scope Shape St Host)
open Buzz.Parser (Ln)
open Buzz.Comp (CS EC Sub Loc Tabs comp bodyC numbered)

/-! ### Strings -/

/-- The string manager after protected strings were registered. -/
def tableOf (xs : List Bytes) : Strman.SM Bytes := ⟨xs.zipIdx, xs.zipIdx.map (fun e => (e.2, (e.1, true))), xs.length⟩

theorem table_str {xs : List Bytes} {s : Bytes} {i : Nat} (hn : xs.Nodup) (hl : xs.length ≤ 65536) : FMap.get (tableOf xs).str2id s = some i ↔ xs[i]? = some s := by
  have e : (tableOf xs).str2id = numbered xs := (Link.numbered_mod hl).symm
  rw [e]
  constructor
  · intro h
    have := FMap.mem_of_get h
    rw [Link.numbered_mod hl] at this
    exact List.mk_mem_zipIdx_iff_getElem?.mp this
  · intro h
    rw [Comp.numbered_get hn h]
    have := (List.getElem?_eq_some_iff.mp h).1
    rw [Nat.mod_eq_of_lt (by omega)]

theorem table_ok (xs : List Bytes) : FMap.Ok (tableOf xs).id2str := by
  unfold FMap.Ok
  rw [show (tableOf xs).id2str.map (·.1) = List.range xs.length by
    show (xs.zipIdx.map _).map _ = _
    rw [List.map_map, show ((fun e : Nat × Bytes × Bool => e.1) ∘ fun e : Bytes × Nat => (e.2, e.1, true)) = Prod.snd from rfl, List.zipIdx_map_snd, List.range_eq_range']]
  exact List.nodup_range

theorem table_id {xs : List Bytes} {s : Bytes} {p : Bool} {i : Nat} : FMap.get (tableOf xs).id2str i = some (s, p) ↔ xs[i]? = some s ∧ p = true := by
  constructor
  · intro h
    obtain ⟨e, h1, h2⟩ := List.mem_map.mp (FMap.mem_of_get h)
    cases h2
    exact ⟨List.mk_mem_zipIdx_iff_getElem?.mp h1, rfl⟩
  · rintro ⟨h, rfl⟩
    exact FMap.get_of_mem (table_ok xs) (List.mem_map.mpr ⟨(s, i), List.mk_mem_zipIdx_iff_getElem?.mpr h, rfl⟩)

theorem table_free {xs : List Bytes} {i : Nat} (h : xs.length ≤ i) : FMap.get (tableOf xs).id2str i = none := by
  cases e : FMap.get (tableOf xs).id2str i with
  | none => rfl
  | some sp =>
    have := (List.getElem?_eq_some_iff.mp (table_id.mp e).1).1
    omega

theorem table_inv {xs : List Bytes} (hn : xs.Nodup) (hl : xs.length ≤ 65535) : Strman.Inv (tableOf xs) where
  ok1 := by
    unfold FMap.Ok
    rw [show (tableOf xs).str2id.map (·.1) = xs from List.zipIdx_map_fst ..]
    exact hn
  ok2 := table_ok xs
  there s i h := ⟨true, table_id.mpr ⟨(table_str hn (by omega)).mp h, rfl⟩⟩
  back i s p h := (table_str hn (by omega)).mpr (table_id.mp h).1
  small i h := by
    obtain ⟨sp, e⟩ := Option.isSome_iff_exists.mp h
    have := (List.getElem?_eq_some_iff.mp (table_id.mp e).1).1
    unfold U16
    omega
  next_small := by
    show xs.length < U16
    unfold U16
    omega
  next_free := table_free le_rfl

/-- A new string gets the next number. -/
theorem table_register {xs : List Bytes} {s : Bytes} (hn : xs.Nodup) (hs : s ∉ xs) (hl : xs.length < 65535) : Strman.register (tableOf xs) s true = .ok (tableOf (xs ++ [s]), xs.length) := by
  have h1 : FMap.get (tableOf xs).str2id s = none := by
    cases e : FMap.get (tableOf xs).str2id s with
    | none => rfl
    | some i => exact absurd (List.mem_of_getElem? ((table_str hn (by omega)).mp e)) hs
  have h2 : Strman.skip (tableOf xs).id2str U16 (xs.length + 1) = .ok (xs.length + 1) := by
    show (if (FMap.get (tableOf xs).id2str (xs.length + 1)).isSome then _ else _) = _
    rw [table_free (by omega)]
    rfl
  have h3 : (xs.length + 1) % U16 = xs.length + 1 := Nat.mod_eq_of_lt (by unfold U16; omega)
  unfold Strman.register
  rw [h1]
  show (match Strman.skip (tableOf xs).id2str U16 (if (xs.length + 1) % U16 = 0 then 1 else (xs.length + 1) % U16) with | .ok m3 => _ | _ => _) = _
  rw [h3, if_neg (by omega), h2]
  have f1 : FMap.set (tableOf xs).str2id s xs.length = (tableOf (xs ++ [s])).str2id := by
    show xs.zipIdx.filter _ ++ _ = (xs ++ [s]).zipIdx
    rw [List.zipIdx_append, List.filter_eq_self.mpr]
    · simp
    · intro e he
      have : e.1 ∈ xs := List.fst_mem_of_mem_zipIdx he
      simp only [bne_iff_ne, ne_eq]
      rintro rfl
      exact hs this
  have f2 : FMap.set (tableOf xs).id2str xs.length (s, true) = (tableOf (xs ++ [s])).id2str := by
    show (xs.zipIdx.map _).filter _ ++ _ = (xs ++ [s]).zipIdx.map _
    rw [List.zipIdx_append, List.map_append, List.filter_eq_self.mpr]
    · simp
    · intro e he
      obtain ⟨x, hx, rfl⟩ := List.mem_map.mp he
      have := List.snd_lt_of_mem_zipIdx hx
      simp only [bne_iff_ne, ne_eq]
      omega
  show Res.ok ((⟨FMap.set (tableOf xs).str2id s xs.length, FMap.set (tableOf xs).id2str xs.length (s, true), xs.length + 1⟩ : Strman.SM Bytes), xs.length) = _
  rw [f1, f2]
  simp [tableOf]

/-- The strings of bytecode. -/
def stringBytes (ss : List Bytes) : Bytes := ss.flatMap (fun s => s ++ [0])

theorem loadStrings_ok {code post : Bytes} : ∀ (ss xs : List Bytes) (pre : Bytes), code = pre ++ (stringBytes ss ++ post) → (xs ++ ss).Nodup → (∀ s ∈ ss, Obj.CStr s) →
    xs.length + ss.length ≤ 65535 → loadStrings code ss.length pre.length (tableOf xs) = .ok (tableOf (xs ++ ss), (pre ++ stringBytes ss).length)
  | [], xs, pre, _, _, _, _ => by simp [loadStrings, stringBytes]
  | s :: ss, xs, pre, hc, hn, hz, hl => by
    have e0 : stringBytes (s :: ss) = s ++ [0] ++ stringBytes ss := rfl
    have hcs : cstrAt code pre.length = .ok s := by
      unfold cstrAt
      have e1 : (code.drop pre.length).takeWhile (· ≠ 0) = s := by
        rw [hc, List.drop_left, e0, List.append_assoc, List.append_assoc, List.takeWhile_append_of_pos]
        · simp
        · intro a ha
          simpa using hz s List.mem_cons_self a ha
      simp only [e1]
      rw [if_pos]
      rw [hc, e0]
      simp only [List.length_append, List.length_cons]
      omega
    have hlt : pre.length < code.length := by
      rw [hc, e0]
      simp only [List.length_append, List.length_cons]
      omega
    have hn1 := List.nodup_append.mp hn
    have hr := table_register hn1.1 (s := s) (fun hm => hn1.2.2 s hm s List.mem_cons_self rfl) (by rw [List.length_cons] at hl; omega)
    have ih := loadStrings_ok (code := code) (post := post) ss (xs ++ [s]) (pre ++ (s ++ [0])) (by rw [hc, e0]; simp) (by simpa using hn) (fun x hx => hz x (List.mem_cons_of_mem _ hx))
      (by rw [List.length_append]; simp only [List.length_cons, List.length_nil] at hl ⊢; omega)
    show (if pre.length < code.length then _ else _) = _
    rw [if_pos hlt, hcs, Res.ok_bind, hr, Res.ok_bind]
    have e3 : (pre ++ (s ++ [0])).length = pre.length + s.length + 1 := by simp; omega
    rw [e3] at ih
    simp only
    rw [ih, e0]
    simp

/-! ### Functions -/

section
variable {K : Ctx} (g : Good K) {vm0 : VM} {ρ0 : List Nat} {p q : Nat} {ws : List Obj} {s : St} {vm : VM}
include g

/-- A function is made outside of functions. -/
theorem pt_def {k : Nat} {ps : List Bytes} {b : Ast} (h : Pt K vm0 ρ0 p ws s vm) (l : LnAt K p (.ref 38 k) q) (hq : q < K.code.length)
    (hF : FunAt K (K.pos k : Int) [Lang.self] ps b) :
    ∃ vm', K.step vm = .ok vm' ∧ Pt K vm0 ρ0 q (.clo s.store.length :: ws) (withNew (.fn ps b [(Lang.self, .nil)]) s) vm' := by
  obtain ⟨l, ha, hk, rfl⟩ := l
  obtain ⟨vm1, ρ, as, h, hp, e, hv⟩ := h.go g l (op := .pushcn) rfl
  have hsz := g.size
  have e2 : VM.exec K.E K.F vm1 .pushcn = .ok (pushC { vm1 with pc := ((p + 5 : Nat) : Int) } (K.pos k : Int) true) := by
    refine (inc_arg g h.core.code h.pc ha hq hp).trans ?_
    rw [intOf_small g (by omega)]
    rfl
  have hi := hv _ e2
  have i1 := h.core.inv.heap
  have i2 : Inv (newobj vm1.heap (.clo true (K.pos k) [])).1 := inv_alloc i1 (by intro b hb; cases hb)
  have hh1 : Holds (newobj (newobj vm1.heap (.clo true (K.pos k) [])).1 (.atom .nil)).1 vm1.heap.brk (.clo true (K.pos k) []) := holds_old i2 (holds_new i1 _)
  have hh2 : Holds (newobj (newobj vm1.heap (.clo true (K.pos k) [])).1 (.atom .nil)).1 (vm1.heap.brk + 1) (.atom .nil) := holds_new i2 _
  refine ⟨_, e.trans e2, h.alloc hi ?_ rfl rfl rfl rfl rfl rfl rfl (le_refl _) (c := .clo true (K.pos k) [vm1.heap.brk + 1]) ?_ ?_ ?_ ?_ h.reps⟩
  · refine ⟨by show vm1.heap.brk ≤ vm1.heap.brk + 1 + 1; omega, fun a c hl hh => ?_⟩
    rcases (holds_write hh1).mp hh with ⟨rfl, _⟩ | ⟨_, hh⟩
    · omega
    · rcases (holds_alloc i2).mp hh with ⟨rfl, _⟩ | hh
      · have hl : vm1.heap.brk + 1 < vm1.heap.brk := hl
        omega
      · rcases (holds_alloc i1).mp hh with ⟨rfl, _⟩ | hh
        · omega
        · exact hh
  · exact (holds_write hh1).mpr (.inl ⟨rfl, rfl⟩)
  · refine ⟨_, _, rfl, .cons ?_ .nil, by simp, hF⟩
    exact ⟨_, (holds_write hh1).mpr (.inr ⟨by omega, hh2⟩), rfl⟩
  · refine ⟨vm1.heap.brk, ?_, rfl⟩
    rw [← h.core.len, List.getElem?_concat_length]
  · show _ :: vm1.stack = _
    rw [h.stack]
    rfl

theorem pt_nop (h : Pt K vm0 ρ0 p ws s vm) (l : LnAt K p (.op 0) q) (hq : q < K.code.length) : ∃ vm', K.step vm = .ok vm' ∧ Pt K vm0 ρ0 q ws s vm' := by
  obtain ⟨l, rfl⟩ := l
  obtain ⟨vm1, ρ, as, h, hp, e, hv⟩ := h.go g l (op := .nop) rfl
  have e2 : VM.exec K.E K.F vm1 .nop = .ok { vm1 with pc := ((p + 1 : Nat) : Int) } := inc_op g h.core.code h.pc hq hp
  refine ⟨_, e.trans e2, h.next (hv _ e2) (Ext.refl _) rfl rfl rfl rfl rfl rfl rfl h.stack ?_⟩
  intro k hl
  exact h.reps

/-- The end of a program. -/
theorem pt_done (h : Pt K vm0 ρ0 p ws s vm) (l : LnAt K p (.op 1) q) : ∃ vm1, Pt K vm0 ρ0 p ws s vm1 ∧ K.step vm = .ok { vm1 with state := .done } := by
  obtain ⟨l, rfl⟩ := l
  obtain ⟨vm1, ρ, as, h, hp, e, hv⟩ := h.go g l (op := .done) rfl
  exact ⟨vm1, ⟨ρ, as, h⟩, e⟩

omit g in
theorem Pt.fetch (h : Pt K vm0 ρ0 p ws s vm) {i : Nat} (hi : rd K.code p = .ok i) : VM.fetch vm = .ok i := by
  obtain ⟨ρ, as, h⟩ := h
  unfold VM.fetch
  rw [if_neg (by rw [h.pc]; omega), h.core.code, h.pc]
  exact hi

omit g in
theorem Pt.ready (h : Pt K vm0 ρ0 p ws s vm) : vm.state = .ready := by
  obtain ⟨ρ, as, h⟩ := h
  exact h.core.ready

omit g in
/-- A step of loading. -/
theorem boot_step (h : Pt K vm0 ρ0 p ws s vm) {i : Nat} (hi : rd K.code p = .ok i) (h0 : i ≠ 0) {vm' : VM} (e : K.step vm = .ok vm') (hr : vm'.state = .ready) (m : Nat) :
    boot K.E K.F (m + 1) vm = boot K.E K.F m vm' := by
  rw [boot, h.fetch hi, Res.ok_bind, if_neg h0, Ctx.step_ok e, Res.ok_bind, if_pos hr]

omit g in
theorem bind_ok {α β : Type} {x : Lang.Ev α} {f : α → Lang.Ev β} {s s' : St} {b : β} (h : (x >>= f) s = .ok b s') : ∃ a s1, x s = .ok a s1 ∧ f a s1 = .ok b s' := by
  have h : (match x s with
    | .ok a s => f a s
    | .ret v s => .ret v s
    | .err e => .err e
    | .odd => .odd
    | .time => .time) = Lang.Out.ok b s' := h
  cases hx : x s with
  | ok a s1 => rw [hx] at h; exact ⟨a, s1, rfl, h⟩
  | ret v s1 => rw [hx] at h; cases h
  | err e => rw [hx] at h; cases h
  | odd => rw [hx] at h; cases h
  | time => rw [hx] at h; cases h

/-- The chunk of a definition. -/
def ChunkOf (K : Ctx) (e : EC) (d : Bytes × List Bytes × Ast) : Prop :=
  ∃ g i, e.sym = some (d.1, g) ∧ FMap.get K.strings d.1 = some i ∧ ((Lang.self :: d.2.1).Nodup → FunAt K (K.pos e.label : Int) [Lang.self] d.2.1 d.2.2)

/-- The code that makes functions known defines them. -/
theorem boot_regs : ∀ (es : List EC) (ds : List (Bytes × List Bytes × Ast)), List.Forall₂ (ChunkOf K) es ds → ∀ {p q : Nat} {s s' : St} {vm : VM}, Pt K vm0 ρ0 p [] s vm → s.scope = .top →
    CodeAt K p (es.flatMap (Link.regLines K.strings)) q → q < K.code.length → Lang.define ds s = .ok () s' →
    ∃ vm' k, Pt K vm0 ρ0 q [] s' vm' ∧ s'.scope = .top ∧ ∀ m, boot K.E K.F (k + m) vm = boot K.E K.F m vm' := by
  intro es ds h2
  induction h2 with
  | nil =>
    intro p q s s' vm hp hs hc hq hd
    cases hd
    cases hc
    exact ⟨vm, 0, hp, hs, fun m => by rw [Nat.zero_add]⟩
  | @cons e d es ds hed h2 ih =>
    intro p q s s' vm hp hs hc hq hd
    obtain ⟨gn, i, k1, k2, k3⟩ := hed
    have e1 : Link.regLines K.strings e = [.num 37 (i : Int), .ref 38 e.label, .op 29] := by
      unfold Link.regLines
      rw [k1]
      simp only [k2, Option.getD_some]
    rw [List.flatMap_cons, e1] at hc
    obtain ⟨p1, l1, p2, l2, p3, l3, hc⟩ := hc
    obtain ⟨c, s1, hd1, hd⟩ := bind_ok (x := Lang.closure d.2.1 d.2.2) hd
    obtain ⟨u, s2, hd2, hd⟩ := bind_ok (x := Lang.putGlobal d.1 c) hd
    have hn : (Lang.self :: d.2.1).Nodup := by
      by_contra hn
      have : Lang.closure d.2.1 d.2.2 s = .odd := by
        show (match s.scope with | .inner => _ | .top => _ | .fn env => _) = _
        rw [hs]
        simp only
        rw [if_neg hn]
      rw [this] at hd1
      cases hd1
    have hd1' : Lang.closure d.2.1 d.2.2 s = .ok (.clo s.store.length) (withNew (.fn d.2.1 d.2.2 [(Lang.self, .nil)]) s) := by
      show (match s.scope with | .inner => _ | .top => _ | .fn env => _) = _
      rw [hs]
      simp only
      rw [if_pos hn]
      rfl
    rw [hd1'] at hd1
    cases hd1
    cases hd2
    have q3 := hc.le
    have q2 := l3.le
    have q1 := l2.le
    obtain ⟨vm1, f1, hp1⟩ := pt_str g hp l1 k2 (by omega)
    obtain ⟨vm2, f2, hp2⟩ := pt_def g hp1 l2 (by omega) (k3 hn)
    obtain ⟨vm3, f3, hp3⟩ := pt_gstore g hp2 l3 k2 (by omega)
    obtain ⟨vm4, k, hp4, hs4, hb⟩ := ih (s := withGlobal d.1 (.clo s.store.length) (withNew (.fn d.2.1 d.2.2 [(Lang.self, .nil)]) s)) hp3 (by exact hs) hc hq hd
    refine ⟨vm4, k + 3, hp4, hs4, fun m => ?_⟩
    rw [show k + 3 + m = (k + m) + 1 + 1 + 1 by omega, boot_step hp l1.1 (by decide) f1 hp1.ready, boot_step hp1 l2.1 (by decide) f2 hp2.ready,
      boot_step hp2 l3.1 (by decide) f3 hp3.ready, hb]

end

end Buzz.Sim
