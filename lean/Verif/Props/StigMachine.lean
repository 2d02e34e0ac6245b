import Verif.StigView
import Verif.Props.Broadcast

/-
C74: virtual stigmergy on the machine.  The specification is in `Verif/StigView.lean`: `View` (what is known of one key), `View.after` (what an event makes of
it), `newer` (which of two entries wins), `Told` (a list of events led from one view to another and every `get` gave what the view said).
-/
namespace Buzz.Props

open Buzz.F32 Buzz.Msg Buzz.Heap Buzz.Value Buzz.VM Buzz.HeapWire Buzz.OutMsg

variable {E : Env} {me base : Nat} {kd : Kind} {s : Vstig.St Unit Obj Obj}

/-- No stigmergy, nothing waiting to be sent. -/
def NoStig (vm : VM) : Prop := vm.other.vstigs = [] ∧ vm.other.puts = [] ∧ vm.other.queries = []

theorem C74_start {vm : VM} (h : NoStig vm) : Shows kd me vm ⟨me, [], OutMsg.new, []⟩ := by
  obtain ⟨h1, h2, h3⟩ := h
  refine ⟨rfl, new_inv, ⟨rfl, rfl⟩, ?_, ?_, ?_, ?_⟩
  · intro id; rw [h1]; trivial
  · rw [h2]; rfl
  · rw [h3]; rfl
  · rw [h2, h3]; intro m hm; cases hm

/-- C74.  Whatever happens in a robot's life — its script's work, creations, puts, gets and sizes, messages received and sent, in any order and number — for
every key of every stigmergy the robot holds at the end what the events say, each `get` on the way gave what the events before it say, each message sent on the
way is the one the events before it say, and what waits to be sent at the end is what the events say.  Keys are all
integers or all strings, values numbers, strings or nil, and no conflict manager is set. -/
theorem C74_life (law : Obj.StrcmpLaw E.sc) (hb : base + 6 < 2147483648) {mgr : Nat → VElem → VElem → VM → Res (VM × Option VElem)} {hook : Nat → VElem → VM → Res VM}
    {l : List StigAct} {vm w : VM} (i : VInv vm) (h0 : NoStig vm) (f : Life E me base kd mgr hook l vm w) (id : Nat) (kE : Obj) :
    VInv w ∧ ∃ y, Told me id kE ⟨false, none, none⟩ l y ∧ (FMap.get w.other.vstigs id).isSome = y.known ∧
      (∀ k, KeyOk kd w.strings k → bare k = kE → ∃ o, stored E w id k = .ok o ∧ o.map bareElem = y.entry) ∧
      ∀ t e, y.waiting = some (t, e) ↔ ∃ x ∈ queueOf t w.other, x.id = id ∧ bare x.k = kE ∧ bareElem (seen w.heap x.e) = e := by
  have r0 : ViewIs (⟨me, [], OutMsg.new, []⟩ : Vstig.St Unit Obj Obj) id kE ⟨false, none, none⟩ := by
    refine ⟨rfl, fun e' => ⟨fun h => (by cases h), ?_⟩, fun e' => ⟨fun h => (by cases h), ?_⟩⟩
    · rintro ⟨k, e, _, h, _⟩
      cases h
    · rintro ⟨k, e, _, h, _⟩
      cases h
  obtain ⟨s', y, _, h2, h3, h4, h5⟩ := life_told law hb f i (C74_start h0) r0
  refine ⟨h3, y, h4, ?_, ?_, ?_⟩
  · rw [h5.known]
    cases h : FMap.get w.other.vstigs id with
    | none => rw [stigs_none h2 h]; rfl
    | some st => obtain ⟨vs, hv, _⟩ := stigs_both h2 h; rw [hv]; rfl
  · intro k hk he
    refine ⟨_, stored_eq law h3 h2 id hk, ?_⟩
    rw [h5.at h2 h3.strings (fun _ _ h => h) hk.str he]
    rfl
  · intro t e
    rw [h5.waiting]
    constructor
    · rintro ⟨k, ⟨t', e'⟩, hk, hw, he⟩
      simp only [Prod.mk.injEq] at he
      obtain ⟨rfl, rfl⟩ := he
      obtain ⟨x, k1, k2, k3, k4⟩ := (waiting_iff h2 _ _ _ _).mp hw
      exact ⟨x, k1, k2, by rw [k3, hk], by rw [k4]⟩
    · rintro ⟨x, k1, k2, k3, k4⟩
      exact ⟨x.k, (t, seen w.heap x.e), k3, (waiting_iff h2 _ _ _ _).mpr ⟨x, k1, k2, rfl, rfl⟩, by rw [k4]⟩

/-- C74, the life as a whole: the stigmergies and queues of the machine go through what `Verif/Vstig.lean` says, so that C20, C21, C23 to C27 are about machines. -/
theorem C74_refines (law : Obj.StrcmpLaw E.sc) (hb : base + 6 < 2147483648) {mgr : Nat → VElem → VElem → VM → Res (VM × Option VElem)} {hook : Nat → VElem → VM → Res VM}
    {l : List StigAct} {vm w : VM} (i : VInv vm) (m : Shows kd me vm s) (f : Life E me base kd mgr hook l vm w) : ∃ s', Ran l s s' ∧ Shows kd me w s' ∧ VInv w :=
  life_shows law hb f i m

/-- A C function that leaves stigmergies, their queues and what they hold alone. -/
def Tame (F : CFuns) : Prop := ∀ n u w, VInv u → u.state = .ready → F n u = .ok w → w.state = .ready → Quiet u w

/-- C74, steps.  A step of the machine leaves the stigmergies alone, unless it calls one of their functions: then that function is entered with the closure's
object and the arguments, the stigmergies being as before. -/
theorem C74_step {other : CFuns} (ho : Tame other) {vm w : VM} (i : VInv vm) (hr : vm.state = .ready) (h : step E (stigFuns E me base other) vm = .ok w) (hw : w.state = .ready) :
    Quiet vm w ∨ ∃ u n l as, Quiet vm u ∧ EntersC vm u n l as ∧ (∀ obj, l = [obj] → Method u obj as) ∧
      (n = 27 ∧ stigCreate E base u = .ok w ∨ n = base + 1 ∧ stigSize E u = .ok w ∨ n = base + 2 ∧ stigPut E me u = .ok w ∨ n = base + 3 ∧ stigGet E me u = .ok w ∨
        n = base + 4 ∧ stigManager E false u = .ok w ∨ n = base + 5 ∧ stigManager E true u = .ok w) := by
  rcases step_shape i hr h hw with q | ⟨u, n, l, as, q, hF, en⟩
  · exact .inl q.quiet
  · replace q := q.quiet
    have fin : ∀ {P : Prop}, P → Quiet vm u ∧ EntersC vm u n l as ∧ (∀ obj, l = [obj] → Method u obj as) ∧ P := by
      intro P p
      refine ⟨q, en, ?_, p⟩
      rintro obj rfl
      obtain ⟨sw, h1⟩ := en.syms
      obtain ⟨p, h2, h3⟩ := en.back
      exact ⟨en.inv, en.ready, _, _, p, _, _, _, h1, rfl, h2, h3⟩
    unfold stigFuns at hF
    split at hF
    · rename_i hn; exact .inr ⟨u, n, l, as, fin (.inl ⟨hn, hF⟩)⟩
    split at hF
    · rename_i hn; exact .inr ⟨u, n, l, as, fin (.inr (.inl ⟨hn, hF⟩))⟩
    split at hF
    · rename_i hn; exact .inr ⟨u, n, l, as, fin (.inr (.inr (.inl ⟨hn, hF⟩)))⟩
    split at hF
    · rename_i hn; exact .inr ⟨u, n, l, as, fin (.inr (.inr (.inr (.inl ⟨hn, hF⟩))))⟩
    split at hF
    · rename_i hn; exact .inr ⟨u, n, l, as, fin (.inr (.inr (.inr (.inr (.inl ⟨hn, hF⟩)))))⟩
    split at hF
    · rename_i hn; exact .inr ⟨u, n, l, as, fin (.inr (.inr (.inr (.inr (.inr ⟨hn, hF⟩)))))⟩
    · exact .inl (q.trans (ho n u w en.inv en.ready hF hw))

/-- The functions C69 and C73 are about are tame as far as they give something back (`Gives`). -/
theorem gives_tame {u w : VM} {c : Cell} (g : Gives u w c) : Quiet u w := ⟨g.inv, by rw [g.other], by rw [g.other], by rw [g.other], fun _ _ _ h => g.heap _ _ h⟩

/-- C74, creation.  `stigmergy.create(id)` gives a table with the number and the six methods, each a C function whose object is that table; the stigmergy is
new and empty, what was in one with the number is gone. -/
theorem C74_create (law : Obj.StrcmpLaw E.sc) (hb : base + 6 < 2147483648) {vm : VM} {obj a id : Nat} (e : Method vm obj [a]) (ha : Holds vm.heap a (.atom (.int id)))
    (hid : id < 65536) (hz : vm.strings.id2str.length + 7 ≤ 65534) (m : Shows kd me vm s) :
    ∃ w, stigCreate E base vm = .ok w ∧ Created E base id vm w ∧ Shows kd me w (Vstig.create s id) := create_sim law hb e ha hid hz m

/-- C74, `put`, `get` and `size` do not fail. -/
theorem C74_put (law : Obj.StrcmpLaw E.sc) {vm : VM} {obj id ka va : Nat} {k v : Obj} (e : Method vm obj [ka, va]) (hid : HasId E vm obj id)
    (hz : vm.strings.id2str.length ≤ 65533) (m : Shows kd me vm s) (hk : Holds vm.heap ka (.atom k)) (ok : OfKind kd k) (hv : Holds vm.heap va (.atom v)) :
    ∃ w s', stigPut E me vm = .ok w ∧ Gave vm w (.atom .nil) ∧ Vstig.put .nil s id k v = .ok s' ∧ Shows kd me w s' := by
  obtain ⟨w, s', h1, h2, h3⟩ := put_sim (E := E) (key_homog law e.inv.strings kd) e hid hz m hk (keyOk_of e.inv hk ok) hv
  exact ⟨w, s', h1, h3.ex, h2, h3.shows⟩

theorem C74_get (law : Obj.StrcmpLaw E.sc) {vm : VM} {obj id ka : Nat} {k : Obj} (e : Method vm obj [ka]) (hid : HasId E vm obj id)
    (hz : vm.strings.id2str.length ≤ 65533) (m : Shows kd me vm s) (hk : Holds vm.heap ka (.atom k)) (ok : OfKind kd k) :
    ∃ w s' v, stigGet E me vm = .ok w ∧ Gave vm w (.atom v) ∧ Vstig.get .nil s id k = .ok (v, s') ∧ Shows kd me w s' := by
  obtain ⟨w, s', v, h1, h2, h3⟩ := get_sim (E := E) (key_homog law e.inv.strings kd) e hid hz m hk (keyOk_of e.inv hk ok)
  exact ⟨w, s', v, h1, h3.ex, h2, h3.shows⟩

theorem C74_size {vm : VM} {obj id : Nat} (e : Method vm obj []) (hid : HasId E vm obj id) (hz : vm.strings.id2str.length ≤ 65533) (m : Shows kd me vm s)
    (hn : Vstig.size s id < 2147483648) : ∃ w, stigSize E vm = .ok w ∧ Gave vm w (.atom (.int (Vstig.size s id))) ∧ Shows kd me w s := by
  obtain ⟨w, h1, h3⟩ := size_sim (E := E) e hid hz m hn
  exact ⟨w, h1, h3.ex, h3.shows⟩

/-- C74, between robots.  The first message of a queue, made into bytes by one robot and received by another, is there an event `recv` with the stigmergy,
key, value, timestamp and robot of the message. -/
theorem C74_gossip (law : Obj.StrcmpLaw E.sc) {me' : Nat} {mgr : Nat → VElem → VElem → VM → Res (VM × Option VElem)} {hook : Nat → VElem → VM → Res VM} {a b : VM}
    (m : Shows kd me a s) {s' : Vstig.St Unit Obj Obj} (i' : VInv b) (m' : Shows kd me' b s') {t : VType} {x : StigMsg} (hx : x ∈ queueOf t a.other)
    {kv dv : Value.Val} (hk : AtomVal x.k kv) (hd : AtomVal (objAt a.heap x.e.data) dv) (hkw : WireOk (realKeq E.sc) kv) (hdw : WireOk (realKeq E.sc) dv)
    (hid : x.id < 65536) (hts : x.e.ts < 65536) (hrob : x.e.robot < 65536) (hz : b.strings.id2str.length + 2 ≤ 65534) (d : Nat) :
    ∃ bytes w k v, stigPayload a.heap (d + 1) t x = .ok bytes ∧ onStig E me' mgr hook t bytes b = .ok w ∧ bare k = bare x.k ∧ bare v = bare (objAt a.heap x.e.data) ∧
      Does E me' base kd mgr hook (.recv t x.id k v x.e.ts x.e.robot) b w := by
  have plain : ∀ {o v}, AtomVal o v → Plain1 v := by
    intro o v h; cases h <;> trivial
  have bareEq : ∀ {o o' v}, AtomVal o v → AtomVal o' v → bare o = bare o' := by
    intro o o' v h h'
    cases h <;> cases h' <;> rfl
  have sameKind : ∀ {o o' v}, AtomVal o v → AtomVal o' v → OfKind kd o → OfKind kd o' := by
    intro o o' v h h' hk
    cases h <;> cases h' <;> exact hk
  have written : ∀ {v}, WireOk (realKeq E.sc) v → ∃ b, ser v = .ok b := fun h => by
    obtain ⟨b, hb, _⟩ := deser_ser (realKeq E.sc) _ h
    exact ⟨b, hb⟩
  have kind : ∀ k, AtomVal k kv → OfKind kd k := by
    intro k hk'
    have hkd : OfKind kd x.k := by
      refine (m.msgs x ?_).1.kind
      cases t
      · exact List.mem_append_left _ hx
      · exact List.mem_append_right _ hx
    exact sameKind hk hk' hkd
  obtain ⟨bk, hbk⟩ : ∃ bk, ser kv = .ok bk := written hkw
  obtain ⟨bd, hbd⟩ : ∃ bd, ser dv = .ok bd := written hdw
  obtain ⟨w, s2, k, v, h1, h2, h3, h4, h5, h6, _, _, _, _, _, _, h7⟩ := arrive_sim (E := E) (mgr := mgr) (hook := hook) law i' m' (t := t) (plain hk) (plain hd) kind hkw hdw hbk hbd hid hts hrob hz
  exact ⟨_, w, k, v, payload_eq m hx hk hd hbk hbd d, h1, bareEq h2 hk, bareEq h3 hd,
    .recv (plain hk) (plain hd) kind hkw hdw hbk hbd hid hts hrob hz h1 h2 h3 h7⟩

/-! ### Cases -/

/-- The hypotheses can be met: `stigmergy.create(1)` called by a script on a machine without stigmergies. -/
example (law : Obj.StrcmpLaw E.sc) (mgr hook) {vm : VM} {a obj : Nat} {st : List Nat} (i : VInv vm) (hr : vm.state = .ready) (hs : vm.stack = a :: st)
    (ha : Holds vm.heap a (.atom (.int 1))) (ho : Live vm.heap obj) (h0 : NoStig vm) (hz : vm.strings.id2str.length ≤ 100) :
    ∃ w, Life E 3 30 .ints mgr hook [.create 1] vm w ∧ stored E w 1 (.int 7) = .ok none ∧ (FMap.get w.other.vstigs 1).isSome = true := by
  have hl : ∀ x ∈ [obj], Live vm.heap x := by intro x hx; cases List.mem_singleton.mp hx; exact ho
  have q := enter_quiet i 1 false hl
  have e : Method (enter vm 1 [obj] false) obj [a] :=
    ⟨q.inv, hr, _, _, _, _, _, vm.pc, rfl, by rw [hs]; rfl, rfl, holds_new i.heap _⟩
  have m := q.shows (kd := .ints) (me := 3) (C74_start h0)
  have ha' : Holds (enter vm 1 [obj] false).heap a (.atom (.int (1 : Nat))) := holds_old i.heap ha
  obtain ⟨w, h1, h2, h3⟩ := C74_create (E := E) (base := 30) law (by decide) e ha' (by decide) (show vm.strings.id2str.length + 7 ≤ 65534 by omega) m
  have f : Life E 3 30 .ints mgr hook [.create 1] vm w := .work q (.act (.create e ha' (by decide) (show vm.strings.id2str.length + 7 ≤ 65534 by omega) h1) (.nil w))
  obtain ⟨_, y, h4, h5, h5', _⟩ := C74_life law (by decide) i h0 f 1 (.int 7)
  have hy : y = ⟨true, none, none⟩ := h4.2.2
  obtain ⟨o, h6, h7⟩ := h5' (.int 7) rfl rfl
  rw [hy] at h7
  rw [Option.map_eq_none_iff.mp h7] at h6
  exact ⟨w, f, h6, by rw [h5, hy]⟩

/-- The events of a life and the views of the key "k" (the string has two different numbers): put, a later message, a message with the same timestamp from a
robot with a smaller number, an older one, deletion; what is sent on the way and what is left to be sent. -/
example : ∀ y, Told 3 1 (.str 0 [107]) ⟨false, none, none⟩ [.put 1 (.str 4 [107]) (.int 5), .create 1, .get 1 (.str 4 [107]) .nil, .put 1 (.str 4 [107]) (.int 5), .get 1 (.str 4 [107]) (.int 5), .sent .put 1 (.str 4 [107]) ⟨.int 5, 1, 3⟩,
    .recv .put 1 (.str 4 [107]) (.int 6) 2 9 , .recv .put 1 (.str 4 [107]) (.int 7) 2 8, .recv .query 1 (.str 4 [107]) (.int 8) 1 10, .get 1 (.str 4 [107]) (.int 6),
    .put 1 (.str 4 [107]) .nil, .recv .query 1 (.str 6 [107]) .nil 0 10, .get 1 (.str 6 [107]) .nil] y ↔ y = ⟨true, none, some (.put, ⟨.nil, 3, 3⟩)⟩ := by
  intro y
  simp [Told, View.after, View.write, View.hear, offer, StigAct.bare, bare, bareElem, newer, View.value]

/-- The script `s = stigmergy.create(1); v = {}; v[1] = 5; s.put(7, v); v[1] = 6` (function 27 is `create`). -/
def stigScript : Bytes := [3, 0, 115, 0, 118, 0, 112, 117, 116, 0,
  37, 0, 0, 0, 0, 2, 39, 27, 0, 0, 0, 36, 1, 0, 0, 0, 36, 1, 0, 0, 0, 33, 29,
  37, 1, 0, 0, 0, 30, 3, 36, 1, 0, 0, 0, 36, 5, 0, 0, 0, 31, 29,
  37, 0, 0, 0, 0, 28, 3, 37, 2, 0, 0, 0, 32, 36, 7, 0, 0, 0, 37, 1, 0, 0, 0, 28, 36, 2, 0, 0, 0, 33, 4,
  37, 1, 0, 0, 0, 28, 36, 1, 0, 0, 0, 36, 6, 0, 0, 0, 31, 1]

/-- What the entry under 7 has under 1 in the end, its timestamp and robot, and the payload of the message. -/
def afterStig : Res (Option Obj × Nat × Nat × Bytes) := do
  let vm ← load host stigScript VM.new
  let vm ← VM.run host (stigFuns host 3 30 Props.noFuns) 200 { vm with nfuns := 30 }
  match FMap.get vm.other.vstigs 1, vm.other.puts with
  | some st, [m] => do
    let e ← Table.get host.sc st.data (.int 7)
    let p ← stigPayload vm.heap 9 .put m
    match e with
    | some e => do
      let c ← deref vm.heap e.data
      match c.cell with
      | .tab t => do
        let o ← Table.get host.sc t (.int 1)
        match o with
        | some x => do
          let c ← deref vm.heap x.2
          pure (some (objOf x.2 c.cell), e.ts, e.robot, p)
        | none => pure (none, e.ts, e.robot, p)
      | _ => .ub
    | none => .ub
  | _, _ => .ub
/-- The robot's own entry has 6, the message 5: the stored value is the object of the script, the message has a copy. -/
theorem C74_alias : afterStig = .ok (some (.int 6), 1, 3, [2, 0, 1, 1, 0, 0, 0, 7, 4, 1, 1, 0, 0, 0, 1, 1, 0, 0, 0, 5, 0, 1, 0, 3]) := by decide +kernel

/-- The script `s = stigmergy.create(1); s.onconflict(f); ...`, `f` being some closure and set `n` times. -/
def managerScript (n : Nat) : Bytes := [2, 0, 115, 0, 111, 110, 99, 111, 110, 102, 108, 105, 99, 116, 0,
  37, 0, 0, 0, 0, 2, 39, 27, 0, 0, 0, 36, 1, 0, 0, 0, 36, 1, 0, 0, 0, 33, 29] ++
  (List.replicate n [37, 0, 0, 0, 0, 28, 3, 37, 1, 0, 0, 0, 32, 39, 27, 0, 0, 0, 36, 1, 0, 0, 0, 33, 4]).flatten ++ [1]

def afterManager (n : Nat) : Res (Option Bool) := do
  let vm ← load host (managerScript n) VM.new
  let vm ← VM.run host (stigFuns host 3 30 Props.noFuns) 100 { vm with nfuns := 30 }
  pure ((FMap.get vm.other.vstigs 1).map (·.onconflict.isSome))

/-- A conflict manager can be set once; setting it again frees an object the heap still has (buzzvstig.c 361). -/
theorem C74_manager_twice : afterManager 0 = .ok (some false) ∧ afterManager 1 = .ok (some true) ∧ afterManager 2 = .ub := by decide +kernel

end Buzz.Props
