import Verif.ApartLib
import Verif.Props.MathLib
import Verif.Props.Listen

/-
C73: a broadcast carries the value as it was when `neighbors.broadcast` was called.
-/
namespace Buzz.Props

open Buzz.F32 Buzz.Msg Buzz.Heap Buzz.Value Buzz.VM Buzz.HeapWire

/-- Every table in the value is a proper one: its keys are stored where they hash to, they are what the key objects hold, and comparison tells them
apart (as it does numbers of one kind, or strings: `C13_int_keys`, `C13_string_keys`). -/
def Proper (sc : Bytes → Bytes → Int) (h : Heap) (a : Nat) : Prop := ∀ x t, Part h a x → Holds h x (.tab t) → Heap.TabOk sc h t

/-- The machine with a message at the end of its queue of broadcasts. -/
def queued (vm : VM) (h : Heap) (m : Nat × Nat) : VM := { vm with heap := h, other := { vm.other with bcasts := vm.other.bcasts ++ [m] } }

theorem part_live {h : Heap} (i : Heap.Inv h) {a x : Nat} (l : Live h a) (p : Part h a x) : Live h x := by
  have step : ∀ {y z}, Elem h y z → Live h z := by
    rintro y z ⟨m, t, g1, g2, e, he, hz⟩
    refine holds_isSome.mp (i.closed y z (points_iff.mpr ⟨m, g1, ?_⟩))
    rw [g2]
    rcases hz with rfl | rfl
    exacts [(tab_child he).1, (tab_child he).2]
  rcases p with rfl | p
  · exact l
  · cases p with
    | one e => exact step e
    | more _ e => exact step e

/-- The part of the heap at and above an address. -/
def above (h : Heap) (lo : Nat) : Heap := { h with objs := h.objs.filter (fun e => decide (lo ≤ e.1)) }

theorem get_above {h : Heap} {lo x : Nat} {m : Marked} : FMap.get (above h lo).objs x = some m ↔ lo ≤ x ∧ FMap.get h.objs x = some m := by
  unfold above
  simp only
  induction h.objs with
  | nil => simp
  | cons e l ih =>
    by_cases hl : lo ≤ e.1
    · rw [List.filter_cons_of_pos (by simpa using hl), FMap.get_cons, FMap.get_cons]
      by_cases hx : e.1 = x
      · subst hx
        simp [hl]
      · simp only [hx, if_false, ih]
    · rw [List.filter_cons_of_neg (by simpa using hl), FMap.get_cons, ih]
      by_cases hx : e.1 = x
      · subst hx
        simp [hl]
      · simp only [hx, if_false]

theorem holds_above {h : Heap} {lo x : Nat} {c : Cell} : Holds (above h lo) x c ↔ lo ≤ x ∧ Holds h x c := by
  constructor
  · rintro ⟨m, h1, h2⟩
    obtain ⟨h3, h4⟩ := get_above.mp h1
    exact ⟨h3, m, h4, h2⟩
  · rintro ⟨h1, m, h2, h3⟩
    exact ⟨m, get_above.mpr ⟨h1, h2⟩, h3⟩

/-- The two clones made by `broadcast`. -/
theorem broadcast_clones {sc : Bytes → Bytes → Int} {h : Heap} {sm : SM} {t a sid : Nat} {s : Bytes} {v : Val} (w : HeapWire.WInv h sm)
    (ht : Holds h t (.atom (.str sid s))) (hr : Repr h 0 a v) (hp : Proper sc h a) :
    ∃ h1 h2 b, clone sc (h.objs.length + 1) h t = .ok (h1, h.brk) ∧ clone sc (h1.objs.length + 1) h1 a = .ok (h2, b) ∧ HeapWire.WInv h2 sm ∧ Ext h h2 ∧
      Holds h2 h.brk (.atom (.str sid s)) ∧ (∀ x, Part h2 b x → h.brk < x) ∧ Live h2 b ∧ (∀ x tb, h.brk ≤ x → Holds h2 x (.tab tb) → Heap.TabOk sc h2 tb) ∧
      Repr h2 (h.brk + 1) b v := by
  have e1 : clone sc (h.objs.length + 1) h t = .ok (alloc h h.marker (.atom (.str sid s))) := by
    obtain ⟨m, g1, g2⟩ := ht
    unfold clone deref
    rw [g1]
    simp only [Res.ok_bind, g2, Res.pure_eq]
    rw [w.heap.marks _ (FMap.mem_of_get g1)]
  have w1 := alloc_ok w (w.cells _ _ ht)
  have x1 := ext_alloc w.heap h.marker (.atom (.str sid s))
  have hl : (alloc h h.marker (.atom (.str sid s))).1.objs.length = h.objs.length + 1 := by simp [alloc]
  obtain ⟨ca, hca⟩ : Live h a := by cases hr <;> exact ⟨_, by assumption⟩
  obtain ⟨h2, b, e2, c⟩ := clone_below w.heap ((alloc h h.marker (.atom (.str sid s))).1.objs.length + 1) (alloc h h.marker (.atom (.str sid s))).1 a []
    w1.heap x1 (holds_isSome.mpr ⟨ca, hca⟩) (repr_acyclic hr) List.nodup_nil (fun x hx => by cases hx) (by rw [hl]; simp only [List.length_nil]; omega)
    (fun x m t hx g1 g2 => hp x t hx ⟨m, g1, g2⟩)
  obtain ⟨w2, _, lb, _⟩ := clone_ok _ _ _ _ _ w1 ⟨ca, holds_alloc_old w.heap _ _ hca⟩ e2
  have hbrk : (alloc h h.marker (.atom (.str sid s))).1.brk = h.brk + 1 := rfl
  have ht2 : Holds h2 h.brk (.atom (.str sid s)) := Ext.holds w1.heap c.ext (holds_alloc_new w.heap _ _)
  have hc := c.copy
  rw [hbrk] at hc
  have htab : ∀ x tb, h.brk ≤ x → Holds h2 x (.tab tb) → Heap.TabOk sc h2 tb := by
    intro x tb hx hh
    by_cases hx0 : x = h.brk
    · subst hx0
      cases holds_inj ht2 hh
    · obtain ⟨m, g1, g2⟩ := hh
      rcases c.fresh x m (by rw [hbrk]; omega) g1 with ⟨_, _, _, _, h5⟩ | ⟨t', h5, h6⟩
      · exact absurd g2 (h5 tb)
      · rw [g2] at h5
        cases h5
        exact h6
  refine ⟨_, h2, b, e1, e2, w2, x1.trans c.ext, ht2, fun x hx => copy_part hc x hx, lb, htab, ?_⟩
  exact copy_repr hc (fun x t hx hh => keys_nodup (hp x t hx hh).wf) (fun x t hx hh => keys_nodup (htab x t (by omega) hh).wf) hr

/-- `broadcast` called with a string and any value. -/
theorem broadcast_eq {E : Env} {vm : VM} {t a sid : Nat} {s : Bytes} {h1 h2 : Heap} {b c : Nat} (e : Entry vm [t, a]) (ht : Holds vm.heap t (.atom (.str sid s)))
    (e1 : clone E.sc (vm.heap.objs.length + 1) vm.heap t = .ok (h1, b)) (e2 : clone E.sc (h1.objs.length + 1) h1 a = .ok (h2, c)) :
    neighborsBroadcast E vm = ret0 { queued vm h2 (b, c) with stack := a :: t :: vm.stack } := by
  obtain ⟨f, fs, self, p, st, r, q, hf, hs, hrest, hq⟩ := e.ex
  unfold neighborsBroadcast
  rw [hf]
  simp only [hs]
  rw [if_neg (by simp), lload_at hf (by rw [hs]; rfl), Res.ok_bind, (peek_top ht _).1, Res.ok_bind]
  simp only [objOf]
  rw [lload_at (vm := { vm with stack := t :: vm.stack }) hf (k := 2) (a := a) (by rw [hs]; rfl), Res.ok_bind]
  have p2 : peekAddr { vm with stack := a :: t :: vm.stack } 2 = .ok t := rfl
  have p1 : peekAddr { vm with stack := a :: t :: vm.stack } 1 = .ok a := rfl
  simp only
  rw [p2, Res.ok_bind, p1, Res.ok_bind, e1, Res.ok_bind]
  simp only
  rw [e2, Res.ok_bind]
  rfl

/-- **C73** a broadcast is a snapshot.  Called with a string and a value that can be sent, `broadcast` returns nil, keeps everything and appends one
message to the queue.  As long as the message is in the queue, whatever the script and the host do meanwhile, changes of the value's tables
included, and whatever is collected, the payload made of it is the serialised topic and the serialised value as it was at the call. -/
theorem C73_snapshot {E : Env} {vm : VM} {t a sid : Nat} {s : Bytes} {v : Val} (e : Entry vm [t, a]) (ht : Holds vm.heap t (.atom (.str sid s)))
    (hr : Repr vm.heap 0 a v) (hp : Proper E.sc vm.heap a) (hs : WireOk (realKeq E.sc) (.str s)) (hw : ∀ v, Repr vm.heap 0 a v → WireOk (realKeq E.sc) v) :
    ∃ (w : VM) (h : Heap) (m : Nat × Nat) (x : Val) (bt bv : Bytes), neighborsBroadcast E vm = .ok w ∧ Gives (queued vm h m) w (.atom .nil) ∧
      (∀ y c, Holds vm.heap y c → Holds h y c) ∧ Repr vm.heap 0 a x ∧ ser (.str s) = .ok bt ∧ ser x = .ok bv ∧
      ∀ F : CFuns, FApart F → ∀ u, While E F m w u → ∃ d, ∀ d', d ≤ d' → broadcastPayload u.heap d' m = .ok (broadcastBytes bt bv) := by
  obtain ⟨h1, h2, b, e1, e2, w2, x2, k1, k2, k3, k4, k5⟩ := broadcast_clones (winv e.inv) ht hr hp
  have old : ∀ y c, Holds vm.heap y c → Holds h2 y c := fun y c => Ext.holds e.inv.heap x2
  have ol : ∀ y, Live vm.heap y → Live h2 y := fun y ⟨c, hc⟩ => ⟨c, old y c hc⟩
  have iq : VInv (queued vm h2 (vm.heap.brk, b)) := by
    have := vinv_grow e.inv w2 ⟨x2, fun _ _ h => h⟩
    have hb : ∀ x ∈ vm.other.bcasts ++ [(vm.heap.brk, b)], Live h2 x.1 ∧ Live h2 x.2 := by
      intro x hx
      rcases List.mem_append.mp hx with hx | hx
      · exact this.other.bcasts x hx
      · rw [List.mem_singleton] at hx
        subst hx
        exact ⟨⟨_, k1⟩, k3⟩
    exact { this with other := { this.other with bcasts := hb } }
  have eq0 : Entry (queued vm h2 (vm.heap.brk, b)) [t, a] := by
    obtain ⟨f, fs, self, p, st, r, q, hf, hs, hrest, hq⟩ := e.ex
    exact ⟨iq, e.ready, f, fs, self, p, st, r, q, hf, hs, hrest, old _ _ hq⟩
  obtain ⟨ca, hca⟩ : Live vm.heap a := by cases hr <;> exact ⟨_, by assumption⟩
  have wk : Work (queued vm h2 (vm.heap.brk, b)) { queued vm h2 (vm.heap.brk, b) with stack := a :: t :: vm.stack } :=
    ((Work.refl iq).pushAddr (a := t) ⟨_, old _ _ ht⟩).pushAddr (a := a) ⟨_, old _ _ hca⟩
  obtain ⟨w, hw0, gv⟩ := ret0_gives eq0 wk
  have lt : ∀ y, Live vm.heap y → ¬ (vm.heap.brk ≤ y ∧ y < h2.brk) := fun y ⟨c, hc⟩ => by have := holds_lt e.inv.heap hc; omega
  have ap : Apart 0 (fun y => vm.heap.brk ≤ y ∧ y < h2.brk) { queued vm h2 (vm.heap.brk, b) with stack := a :: t :: vm.stack } := by
    refine ⟨Nat.zero_le _, fun y hy => lt y ?_, fun s hs y hy => lt y (e.inv.rest s (List.mem_of_mem_take hs) y hy), fun f hf y hy => lt y (e.inv.frames f hf y hy), fun x hx => lt _ (e.inv.gsyms x hx),
      fun y hy => lt y ?_, fun y c hc hn z hz => lt z ?_, fun y hy => hy.2⟩
    · rcases List.mem_cons.mp hy with rfl | hy
      · exact ⟨_, hca⟩
      · rcases List.mem_cons.mp hy with rfl | hy
        · exact ⟨_, ht⟩
        · exact e.inv.stack y hy
    · have o := e.inv.other
      rcases hy with ⟨x, hx, h⟩ | ⟨x, hx, rfl⟩
      · obtain ⟨o1, o2, o3⟩ := o.vstigs x hx
        rcases h with h | h | ⟨z, hz, rfl | rfl⟩
        exacts [o1 _ h, o2 _ h, (o3 _ hz).1, (o3 _ hz).2]
      · exact o.listeners x hx
    · have hy : y < vm.heap.brk := by have := holds_lt w2.heap hc; omega
      obtain ⟨m, g1, g2⟩ := hc
      have g1 : FMap.get h2.objs y = some m := g1
      rw [x2.old y hy] at g1
      exact holds_isSome.mp (e.inv.heap.closed y z (points_iff.mpr ⟨m, g1, by rw [g2]; exact hz⟩))
  have aw := (ret0_sep ap).strict
  rw [hw0] at aw
  -- the parts of the message
  have pt : ∀ y, Part h2 vm.heap.brk y → y = vm.heap.brk := by
    intro y hy
    have key : ∀ z, ¬ Elem h2 vm.heap.brk z := by
      rintro z ⟨m, t0, g1, g2, _⟩
      cases holds_inj k1 ⟨m, g1, g2⟩
    have nb : ∀ z, ¬ Below h2 vm.heap.brk z := by
      intro z hz
      induction hz with
      | one el => exact key _ el
      | more _ _ ih => exact ih
    rcases hy with rfl | hy
    · rfl
    · exact absurd hy (nb y)
  have hlow : ∀ y, Part h2 vm.heap.brk y ∨ Part h2 b y → vm.heap.brk ≤ y := by
    rintro y (hy | hy)
    · rw [pt y hy]
    · exact Nat.le_of_lt (k2 y hy)
  have hlive : ∀ y, Part h2 vm.heap.brk y ∨ Part h2 b y → ∃ c, Holds h2 y c := by
    rintro y (hy | hy)
    · exact part_live w2.heap ⟨_, k1⟩ hy
    · exact part_live w2.heap k3 hy
  have hP : ∀ y, Part h2 vm.heap.brk y ∨ Part h2 b y → vm.heap.brk ≤ y ∧ y < h2.brk := fun y hy =>
    ⟨hlow y hy, by obtain ⟨c, hc⟩ := hlive y hy; exact holds_lt w2.heap hc⟩
  -- the bytes
  have sz : Sized (above h2 vm.heap.brk) := by
    intro y tb hh
    obtain ⟨g1, g2⟩ := holds_above.mp hh
    exact (k4 y tb g1 g2).wf.size_eq
  have ra : Repr (above h2 vm.heap.brk) 0 b v := k5.mono (Nat.zero_le _) (fun y c hy hc => holds_above.mpr ⟨by omega, hc⟩)
  have tr : ∀ x, Repr (above h2 vm.heap.brk) 0 b x → Repr vm.heap 0 a x := transfers v _ _ _ _ _ _ ra hr
  obtain ⟨x, d1, rx, hd1⟩ := hser_spec sz ra
  obtain ⟨bv, hbv, _⟩ := deser_ser (realKeq E.sc) x (hw x (tr x rx))
  have rt : Repr (above h2 vm.heap.brk) 0 vm.heap.brk (.str s) := .str (Nat.zero_le _) (holds_above.mpr ⟨le_refl _, k1⟩)
  obtain ⟨y, d2, ry, hd2⟩ := hser_spec sz rt
  have hy : y = .str s := by
    have hh : Holds (above h2 vm.heap.brk) vm.heap.brk (.atom (.str sid s)) := holds_above.mpr ⟨le_refl _, k1⟩
    cases ry with
    | nil _ q => cases holds_inj hh q
    | int _ q => cases holds_inj hh q
    | flt _ q => cases holds_inj hh q
    | str _ q => cases holds_inj hh q; rfl
    | user _ q => cases holds_inj hh q
    | table _ q => cases holds_inj hh q
    | clo _ q => cases holds_inj hh q
  subst hy
  obtain ⟨bt, hbt, _⟩ := deser_ser (realKeq E.sc) (.str s) hs
  refine ⟨w, h2, (vm.heap.brk, b), x, bt, bv, ?_, gv, old, tr x rx, hbt, hbv, fun F hF u wu => ?_⟩
  · rw [broadcast_eq e ht e1 e2]
    exact hw0
  · obtain ⟨_, _, kc⟩ := while_cells (H := h2) hF aw.1 hP (fun y c hy hc => aw.2 y c hy hc) hlive wu
    have ser2 : ∀ d y, Part h2 vm.heap.brk y ∨ Part h2 b y → hser (above h2 vm.heap.brk) d y = hser u.heap d y := fun d y hy =>
      hser_part (S := fun y => Part h2 vm.heap.brk y ∨ Part h2 b y) (fun y hy => by
        obtain ⟨c, hc⟩ := hlive y hy
        exact ⟨c, holds_above.mpr ⟨hlow y hy, hc⟩, kc y c hy hc⟩) (fun y z hy hz => by
        have : Elem h2 y z := by
          obtain ⟨m, t0, g1, g2⟩ := hz
          exact ⟨m, t0, (get_above.mp g1).2, g2⟩
        exact hy.imp (fun h => h.elem this) (fun h => h.elem this)) d y hy
    refine ⟨max d1 d2, fun d' hd => ?_⟩
    unfold broadcastPayload
    rw [← ser2 d' _ (.inl (.inl rfl)), ← ser2 d' _ (.inr (.inl rfl)), hd2 d' (by omega), hd1 d' (by omega), hbt, hbv]
    rfl

/-- **C73** and it reaches the listeners of whoever receives it: on a machine with a closure listening to the topic, this payload makes the machine
call this closure, with the topic, an object that stands for exactly what the broadcast value stood for at the sender when `broadcast` was called, and
the sender's id. -/
theorem C73_delivered {E : Env} {vm : VM} {t a sid : Nat} {s : Bytes} {v : Val} (e : Entry vm [t, a]) (ht : Holds vm.heap t (.atom (.str sid s)))
    (hr : Repr vm.heap 0 a v) (hp : Proper E.sc vm.heap a) (hs : WireOk (realKeq E.sc) (.str s)) (hw : ∀ v, Repr vm.heap 0 a v → WireOk (realKeq E.sc) v) :
    ∃ (w : VM) (m : Nat × Nat), neighborsBroadcast E vm = .ok w ∧ w.other.bcasts = vm.other.bcasts ++ [m] ∧
      ∀ F : CFuns, FApart F → ∀ u, While E F m w u → ∃ d p, (∀ d', d ≤ d' → broadcastPayload u.heap d' m = .ok p) ∧
        ∀ (G : CFuns) (fuel rid c : Nat) (r : VM), VInv r → (∀ x, Repr vm.heap 0 a x → r.strings.id2str.length + 1 + strs x ≤ 65534) → rid < 65536 → Listens r s c →
          ∃ h' sm' sid' t' x' r', onBroadcast E G fuel p rid r = (do
              let z ← closureCall E G fuel 3 { r with heap := h', strings := sm', stack := r' :: x' :: t' :: c :: r.stack }
              pure (pop z)) ∧
            Holds h' t' (.atom (.str sid' s)) ∧ (∀ y, Repr h' 0 x' y ↔ Repr vm.heap 0 a y) ∧ Holds h' r' (.atom (.int rid)) ∧
            ∀ y c, Holds r.heap y c → Holds h' y c := by
  obtain ⟨w, h, m, x, bt, bv, h1, h2, h3, h4, h5, h6, h7⟩ := C73_snapshot e ht hr hp hs hw
  refine ⟨w, m, h1, by rw [h2.other]; rfl, fun F hF u wu => ?_⟩
  obtain ⟨d, hd⟩ := h7 F hF u wu
  refine ⟨d, _, hd, fun G fuel rid c r ir hz hrid hl => ?_⟩
  obtain ⟨h', sm', sid', t', x', r', g1, g2, g3, g4, _, g5, _⟩ := C52_called (F := G) (fuel := fuel) ir hs h5 (hw x h4) h4.bools h6 (hz x h4) hrid hl
  exact ⟨h', sm', sid', t', x', r', g1, g2, fun y => ⟨transfers x _ _ _ _ _ _ g3 h4 y, transfers x _ _ _ _ _ _ h4 g3 y⟩, g4, g5⟩

/-- **C73** the modelled C functions (`neighbors.get`, `count`, `broadcast`, `listen`, `ignore`, types, math, strings) let a queued message alone, with any others
that do. -/
theorem C73_functions (E : Env) (other : CFuns) (ho : FApart other) : FApart (robotFuns E other) := robotFuns_sep ho

/-- The script `v = {}; v[1] = 5; neighbors.broadcast("t", v); v[1] = 6` (function 8 is `broadcast`). -/
def castScript : Bytes := [2, 0, 116, 0, 118, 0, 37, 1, 0, 0, 0, 30, 3, 36, 1, 0, 0, 0, 36, 5, 0, 0, 0, 31, 29,
  2, 39, 8, 0, 0, 0, 37, 0, 0, 0, 0, 37, 1, 0, 0, 0, 28, 36, 2, 0, 0, 0, 33, 4,
  37, 1, 0, 0, 0, 28, 36, 1, 0, 0, 0, 36, 6, 0, 0, 0, 31, 1]

/-- What `v[1]` is in the end, and the payload. -/
def afterCast : Res (Option Obj × Bytes) := do
  let vm ← load host castScript VM.new
  let vm ← VM.run host (robotFuns host Props.noFuns) 100 { vm with nfuns := 11 }
  match FMap.get vm.gsyms 1, vm.other.bcasts with
  | some a, [m] => do
    let c ← deref vm.heap a
    let p ← broadcastPayload vm.heap 9 m
    match c.cell with
    | .tab t => do
      let o ← Table.get host.sc t (.int 1)
      match o with
      | some x => do
        let c ← deref vm.heap x.2
        pure (some (objOf x.2 c.cell), p)
      | none => pure (none, p)
    | _ => .ub
  | _, _ => .ub

/-- The table has 6, the message 5. -/
example : afterCast = .ok (some (.int 6), [0, 3, 0, 1, 116, 4, 1, 1, 0, 0, 0, 1, 1, 0, 0, 0, 5]) := by decide +kernel

/-- A heap with the table `{1: 5}` at address 5. -/
theorem one_entry {h : Heap} {t : Table.Tbl (Nat × Nat)} (k3 : Holds h 3 (.atom (.int 1))) (k4 : Holds h 4 (.atom (.int 5))) (k5 : Holds h 5 (.tab t))
    (hent : Dict.entries t = [(.int 1, (3, 4))]) (h2 : Dict.WF Table.hashN Table.eqd t) (h3 : Table.Keys IsInt t) :
    Repr h 0 5 (.table (.cons (.int 1) (.int 5) .nil)) ∧ Proper host.sc h 5 ∧ ∀ v, Repr h 0 5 v → WireOk (realKeq host.sc) v := by
  refine ⟨.table (t := t) (l := [(.int 1, (3, 4))]) (Nat.zero_le _) k5 (by rw [hent]) (.cons k3 (.int (Nat.zero_le _) k3) (.int (Nat.zero_le _) k4) .nil), ?_, ?_⟩
  · have tab : ∀ x tb, (x = 3 ∨ x = 4 ∨ x = 5) → Holds h x (.tab tb) → tb = t := fun x tb hx hh => by
      rcases hx with rfl | rfl | rfl
      · cases holds_inj hh k3
      · cases holds_inj hh k4
      · cases holds_inj hh k5; rfl
    have step : ∀ x y, (x = 3 ∨ x = 4 ∨ x = 5) → Elem h x y → (y = 3 ∨ y = 4 ∨ y = 5) := fun x y hx ⟨m, tb, g1, g2, e, he, hy⟩ => by
      rw [tab x tb hx ⟨m, g1, g2⟩, hent, List.mem_singleton] at he
      subst he
      rcases hy with rfl | rfl <;> simp
    have below : ∀ x, Below h 5 x → (x = 3 ∨ x = 4 ∨ x = 5) := fun x hx => by
      induction hx with
      | one el => exact step _ _ (by simp) el
      | more _ el ih => exact step _ _ ih el
    intro x tb hx hh
    have hx : x = 3 ∨ x = 4 ∨ x = 5 := by
      rcases hx with rfl | hx
      · simp
      · exact below x hx
    rw [tab x tb hx hh]
    refine ⟨h2, ⟨_, C13_int_keys host.sc, h3⟩, fun e he => ?_⟩
    rw [hent, List.mem_singleton] at he
    subst he
    exact k3
  · intro v hv
    cases hv with
    | nil _ q => cases holds_inj k5 q
    | int _ q => cases holds_inj k5 q
    | flt _ q => cases holds_inj k5 q
    | str _ q => cases holds_inj k5 q
    | user _ q => cases holds_inj k5 q
    | clo _ q => cases holds_inj k5 q
    | table _ q hp re =>
      cases holds_inj k5 q
      rw [hent] at hp
      rw [List.perm_singleton.mp hp] at re
      cases re with | cons _ r1 r2 r3 =>
      cases r3
      have v1 : ∀ {a : Nat} {i : Int} {v : Val}, Holds h a (.atom (.int i)) → Repr h 0 a v → v = .int i := fun ha hv => by
        cases hv with
        | nil _ q => cases holds_inj ha q
        | int _ q => cases holds_inj ha q; rfl
        | flt _ q => cases holds_inj ha q
        | str _ q => cases holds_inj ha q
        | user _ q => cases holds_inj ha q
        | clo _ q => cases holds_inj ha q
        | table _ q => cases holds_inj ha q
      rw [v1 k3 r1, v1 k4 r2]
      simp [WireOk, EntsOk, Ents.toList, KeyOk]

/-- The hypotheses of `C73_snapshot` hold of a machine that has entered `broadcast("t", {1: 5})`. -/
example : ∃ (vm : VM) (t a sid : Nat), Entry vm [t, a] ∧ Holds vm.heap t (.atom (.str sid [116])) ∧
    Repr vm.heap 0 a (.table (.cons (.int 1) (.int 5) .nil)) ∧ Proper host.sc vm.heap a ∧ WireOk (realKeq host.sc) (.str [116]) ∧
    ∀ v, Repr vm.heap 0 a v → WireOk (realKeq host.sc) v := by
  obtain ⟨sm, sid, _, e2, _, e4, _, e6⟩ := register_inv VM.new_inv.strings (by decide) [116] false
  have i0 := VM.new_inv.setStrings e2 e6
  have i2 := (i0.push (c := .atom .nil) trivial).push (c := .atom .nil) trivial
  have i3 := i2.push (c := .atom (.str sid [116])) e4
  have i4 := i3.push (c := .atom (.int 1)) (by show I32 1; unfold I32; decide)
  have i5 := (i4.push (c := .atom (.int 5)) (by show I32 5; unfold I32; decide)).popN 2
  obtain ⟨t, h1, h2, h3, h4⟩ := Table.put_spec (V := Nat × Nat) (C13_int_keys host.sc) (t := Table.new) (Dict.new_wf (by decide)) (fun e he => by simp [Table.new, Dict.entries_new] at he)
    (k := .int 1) ⟨1, rfl⟩ (some (3, 4))
  have hent : Dict.entries t = [(.int 1, (3, 4))] := by
    have : Dict.entries (Table.new : Table.Tbl (Nat × Nat)) = [] := by simp [Table.new, Dict.entries_new]
    rw [this] at h4
    exact List.perm_singleton.mp h4
  have i6 := i5.push (c := .tab t) ⟨Nat.pos_iff_ne_zero.mp h2.pos, fun e he => by
    rw [hent, List.mem_singleton] at he
    subst he
    exact ⟨rfl, by simp [Obj.tableHash], ⟨_, rfl, rfl⟩, ⟨_, ⟨_, rfl, rfl⟩⟩⟩⟩
  have i7 : VInv { VM.push (VM.popN (VM.push (VM.push (VM.push (VM.push (VM.push { VM.new with strings := sm } (.atom .nil)) (.atom .nil)) (.atom (.str sid [116]))) (.atom (.int 1)))
      (.atom (.int 5))) 2) (.tab t) with state := .ready } := { i6 with depth := fun _ => i6.depth (by simp [VM.push, VM.popN, VM.new]) }
  have e := entry_of_call (n := 2) (actrec := [0]) (sw := false) i7 rfl (by
    intro a ha
    simp only [List.mem_singleton] at ha
    subst ha
    exact ⟨.atom .nil, ⟨_, rfl, rfl⟩⟩) rfl
  refine ⟨_, 2, 5, sid, e, ⟨_, rfl, rfl⟩, ?_⟩
  exact (fun h => ⟨h.1, h.2.1, ⟨by decide, by decide⟩, h.2.2⟩) (one_entry ⟨_, rfl, rfl⟩ ⟨_, rfl, rfl⟩ ⟨_, rfl, rfl⟩ hent h2 h3)

end Buzz.Props
