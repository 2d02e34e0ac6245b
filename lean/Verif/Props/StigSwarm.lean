import Verif.StigNet
import Verif.Props.StigMachine

/-
C75: virtual stigmergy in a swarm of machines.  `Verif/StigNet.lean` has `Swarm` (an execution: at each moment one robot works, calls a function of a stigmergy,
sends or receives), `viewOn` (what the events say a robot knows of a key) and `Wrote` (the entries written); the order of entries is `Older` of C23.
-/
namespace Buzz.Props

open Buzz.F32 Buzz.Msg Buzz.Heap Buzz.Value Buzz.VM Buzz.HeapWire Buzz.OutMsg

variable {E : Env} {base : Nat} {kd : Kind} {id : Nat} {kE : Obj} {mgr : Nat → VElem → VElem → VM → Res (VM × Option VElem)} {hook : Nat → VElem → VM → Res VM}
  {R : Nat → Prop} {v₀ v : Nat → VM} {tr : List (Nat × StigAct)}

/-- Before the execution looked at, robot `i` came from a machine without stigmergies, and by what it did it has the stigmergy, nothing under the key and
nothing about the key to be sent. -/
def Begun (E : Env) (base : Nat) (kd : Kind) (mgr : Nat → VElem → VElem → VM → Res (VM × Option VElem)) (hook : Nat → VElem → VM → Res VM) (id : Nat) (kE : Obj)
    (i : Nat) (w : VM) : Prop :=
  ∃ vm l, VInv vm ∧ NoStig vm ∧ Life E i base kd mgr hook l vm w ∧ Told i id kE ⟨false, none, none⟩ l ⟨true, none, none⟩

/-- Robot `i` received what the others sent about the key. -/
def GotAll (id : Nat) (kE : Obj) (tr : List (Nat × StigAct)) (i : Nat) : Prop :=
  ∀ a t k e, (a, StigAct.sent t id k e) ∈ tr → bare k = kE → a ≠ i →
    ∃ t' k' d ts r, (i, StigAct.recv t' id k' d ts r) ∈ tr ∧ bare k' = kE ∧ bareElem ⟨d, ts, r⟩ = bareElem e

/-- Nothing about the key waits in a queue of the machine. -/
def Idle (id : Nat) (kE : Obj) (w : VM) : Prop := ∀ t, ∀ x ∈ queueOf t w.other, ¬ (x.id = id ∧ bare x.k = kE)

/-- How many values were put under the key. -/
def putsOf (id : Nat) (kE : Obj) (tr : List (Nat × StigAct)) : Nat := (tr.filter (fun p => isPut id kE p.2)).length

theorem told_unique {me : Nat} : ∀ (l : List StigAct) {x y y' : VM.View}, Told me id kE x l y → Told me id kE x l y' → y = y'
  | [], _, _, _, h, h' => h.trans h'.symm
  | _ :: l, _, _, _, h, h' => told_unique l h.2.2 h'.2.2

theorem begun_ready (law : Obj.StrcmpLaw E.sc) (hb : base + 6 < 2147483648) {i : Nat} {w : VM} (h : Begun E base kd mgr hook id kE i w) :
    VInv w ∧ ∃ s, Shows kd i w s ∧ ViewIs s id kE ⟨true, none, none⟩ := by
  obtain ⟨vm, l, h1, h2, h3, h4⟩ := h
  have r0 : ViewIs (⟨i, [], OutMsg.new, []⟩ : Vstig.St Unit Obj Obj) id kE ⟨false, none, none⟩ := by
    refine ⟨rfl, fun e' => ⟨fun h => (by cases h), ?_⟩, fun e' => ⟨fun h => (by cases h), ?_⟩⟩
    · rintro ⟨k, e, _, h, _⟩
      cases h
    · rintro ⟨k, e, _, h, _⟩
      cases h
  obtain ⟨s', y, _, g2, g3, g4, g5⟩ := life_told law hb h3 h1 (C74_start h2) r0
  rw [told_unique l g4 h4] at g5
  exact ⟨g3, s', g2, g5⟩

theorem outside (sw : Swarm E base kd mgr hook R v₀ tr v) {i : Nat} (hi : ¬ R i) : viewOn id kE i tr = ⟨true, none, none⟩ := by
  induction sw with
  | start => rfl
  | work _ _ _ ih => exact ih
  | @act tr v j a w _ hj _ _ ih =>
    rw [viewOn_snoc, if_neg (show ¬ j = i from fun e => hi (e ▸ hj))]
    exact ih

theorem fresh_robots : Fresh id kE (robots id) := by
  intro i
  refine ⟨rfl, ?_, ?_, rfl⟩
  · exact ⟨Vstig.Vs.new, by simp [robots, FMap.get], rfl⟩
  · simp [robots, Vstig.entry, FMap.get, Vstig.Vs.new]

/-- What robot `i` has stored is what the events say. -/
theorem stored_view (law : Obj.StrcmpLaw E.sc) {i : Nat} {w : VM} {x : VM.View} (h : VInv w ∧ ∃ s, Shows kd i w s ∧ ViewIs s id kE x) {k : Obj} (hk : KeyOk kd w.strings k) (he : bare k = kE) :
    ∃ o, stored E w id k = .ok o ∧ o.map bareElem = x.entry := by
  obtain ⟨h1, s, h2, h3⟩ := h
  refine ⟨_, stored_eq law h1 h2 id hk, ?_⟩
  rw [h3.at h2 h1.strings (fun _ _ h => h) hk.str he]
  rfl

theorem idle_view {i : Nat} {w : VM} {x : VM.View} (h : VInv w ∧ ∃ s, Shows kd i w s ∧ ViewIs s id kE x) (hq : Idle id kE w) : x.waiting = none := by
  obtain ⟨_, s, h2, h3⟩ := h
  cases hw : x.waiting with
  | none => rfl
  | some y =>
    obtain ⟨k, ⟨t, e⟩, hk, hm, _⟩ := (h3.waiting y).mp hw
    obtain ⟨m, k1, k2, k3, _⟩ := (waiting_iff h2 _ _ _ _).mp hm
    exact absurd ⟨k2, by rw [k3, hk]⟩ (hq t m k1)

/-- C75, convergence.  Robots of a swarm work, put and get values, send and receive in any order; what is received was sent by some robot.  Nobody deletes the key
or creates the stigmergy again, and at most 65535 values were put under the key.  When nothing about the key waits to be sent on any machine, two robots that
received what the others sent about it have the same value, timestamp and robot stored under it, and this is the greatest of all entries written. -/
theorem C75_converge (law : Obj.StrcmpLaw E.sc) (hb : base + 6 < 2147483648) (h0 : ∀ i, R i → Begun E base kd mgr hook id kE i (v₀ i))
    (sw : Swarm E base kd mgr hook R v₀ tr v) (hk : KeyKept id kE tr) (hw : putsOf id kE tr ≤ 65535) (hq : ∀ i, R i → Idle id kE (v i))
    {i j : Nat} (ri : R i) (rj : R j) (hi : GotAll id kE tr i) (hj : GotAll id kE tr j) {k k' : Obj} (ki : KeyOk kd (v i).strings k) (kj : KeyOk kd (v j).strings k')
    (ei : bare k = kE) (ej : bare k' = kE) :
    ∃ o o', stored E (v i) id k = .ok o ∧ stored E (v j) id k' = .ok o' ∧ o.map bareElem = o'.map bareElem ∧
      ∀ e, Wrote id kE tr e → ∃ l, Wrote id kE tr l ∧ o.map bareElem = some l ∧ Older .nil e l := by
  obtain ⟨evs, σ, n⟩ := swarm_net law hb sw (fun i hi => begun_ready law hb (h0 i hi)) hk
  have got : ∀ i, GotAll id kE tr i → ∀ a t e, NetEv.sent a t id kE e ∈ evs → a ≠ i → ∃ t', NetEv.got i t' id kE e ∈ evs := by
    intro i h a t e hs ha
    obtain ⟨k, e', h1, h2, h3⟩ := (n.agree.sent a t e).mp hs
    obtain ⟨t', k', d, ts, r, g1, g2, g3⟩ := h a t k e' h1 h2 ha
    exact ⟨t', (n.agree.got i t' e).mpr ⟨k', d, ts, r, g1, g2, g3.trans h3⟩⟩
  have hq' : ∀ i, OutMsg.queued (σ i).out id kE = none := by
    intro i
    have hn : (viewOn id kE i tr).waiting = none := by
      by_cases h : R i
      · exact idle_view (n.real i h) (hq i h)
      · rw [outside sw h]
    rw [← (n.one i).view] at hn
    have : Vstig.waitingMsg (σ i) id kE = none := hn
    simpa [Vstig.waitingMsg] using this
  obtain ⟨c1, c2⟩ := C24_converge .nil fresh_robots n.run n.agree.kept (by rw [n.agree.count]; exact hw) hq' i j (got i hi) (got j hj)
  obtain ⟨o, s1, s2⟩ := stored_view law (n.real i ri) ki ei
  obtain ⟨o', s3, s4⟩ := stored_view law (n.real j rj) kj ej
  have v1 : ∀ i, (viewOn id kE i tr).entry = Vstig.entry (σ i) id kE := fun i => by rw [← (n.one i).view]; rfl
  rw [v1] at s2 s4
  refine ⟨o, o', s1, s3, by rw [s2, s4, c1], fun e he => ?_⟩
  obtain ⟨l, l1, l2, l3⟩ := c2 e ((n.agree.wrote e).mpr he)
  exact ⟨l, (n.agree.wrote l).mp l1, by rw [s2, l2], l3⟩

/-- C75, at any moment.  What a robot has stored under the key was written by some robot, and entries of two robots with the same timestamp and robot are the same. -/
theorem C75_real (law : Obj.StrcmpLaw E.sc) (hb : base + 6 < 2147483648) (h0 : ∀ i, R i → Begun E base kd mgr hook id kE i (v₀ i))
    (sw : Swarm E base kd mgr hook R v₀ tr v) (hk : KeyKept id kE tr) (hw : putsOf id kE tr ≤ 65535)
    {i j : Nat} (ri : R i) (rj : R j) {k k' : Obj} (ki : KeyOk kd (v i).strings k) (kj : KeyOk kd (v j).strings k') (ei : bare k = kE) (ej : bare k' = kE) :
    ∃ o o', stored E (v i) id k = .ok o ∧ stored E (v j) id k' = .ok o' ∧ (∀ e, o = some e → Wrote id kE tr (bareElem e)) ∧
      ∀ e e', o = some e → o' = some e' → e.ts = e'.ts → e.robot = e'.robot → bare e.data = bare e'.data := by
  obtain ⟨evs, σ, n⟩ := swarm_net law hb sw (fun i hi => begun_ready law hb (h0 i hi)) hk
  have nv := netInv_run .nil fresh_robots n.run n.agree.kept (by rw [n.agree.count]; exact hw)
  obtain ⟨o, s1, s2⟩ := stored_view law (n.real i ri) ki ei
  obtain ⟨o', s3, s4⟩ := stored_view law (n.real j rj) kj ej
  have v1 : ∀ i, (viewOn id kE i tr).entry = Vstig.entry (σ i) id kE := fun i => by rw [← (n.one i).view]; rfl
  rw [v1] at s2 s4
  refine ⟨o, o', s1, s3, ?_, ?_⟩
  · rintro e rfl
    exact (n.agree.wrote _).mp (nv.real i _ s2.symm)
  · rintro e e' rfl rfl h1 h2
    have := nv.coherent _ _ (nv.real i _ s2.symm) (nv.real j _ s4.symm) h1 h2
    exact congrArg Elem.data this

/-! ### Cases -/

/-- Two robots put different values under 7 at the same time (timestamp 1); each sends, each receives the other's message.  Robot 4 gains; robot 3 sends its
choice on, robot 4 nothing more.  Both robots' views are equal, the entry is the greatest of the two written. -/
def duel : List (Nat × StigAct) :=
  [(3, .put 1 (.int 7) (.int 5)), (4, .put 1 (.int 7) (.int 6)), (3, .sent .put 1 (.int 7) ⟨.int 5, 1, 3⟩), (4, .sent .put 1 (.int 7) ⟨.int 6, 1, 4⟩),
   (3, .recv .put 1 (.int 7) (.int 6) 1 4), (4, .recv .put 1 (.int 7) (.int 5) 1 3)]

example : viewOn 1 (.int 7) 3 duel = ⟨true, some ⟨.int 6, 1, 4⟩, some (.put, ⟨.int 6, 1, 4⟩)⟩ ∧ (viewOn 1 (.int 7) 4 duel).entry = some ⟨.int 6, 1, 4⟩ := by
  refine ⟨?_, ?_⟩ <;> simp [viewOn, duel, VM.View.after, VM.View.write, VM.View.hear, offer, StigAct.bare, bare, newer]

example : Wrote 1 (.int 7) duel ⟨.int 5, 1, 3⟩ ∧ Wrote 1 (.int 7) duel ⟨.int 6, 1, 4⟩ ∧ KeyKept 1 (.int 7) duel := by
  refine ⟨⟨[], 3, .int 7, .int 5, _, rfl, rfl, by simp, ?_⟩, ⟨[_], 4, .int 7, .int 6, _, rfl, rfl, by simp, ?_⟩, ?_⟩
  · simp [viewOn, VM.View.after, VM.View.write, StigAct.bare, bare]
  · simp [viewOn, VM.View.after, VM.View.write, StigAct.bare, bare]
  · intro i a h
    simp only [duel, List.mem_cons, Prod.mk.injEq, List.not_mem_nil, or_false] at h
    rcases h with ⟨_, rfl⟩ | ⟨_, rfl⟩ | ⟨_, rfl⟩ | ⟨_, rfl⟩ | ⟨_, rfl⟩ | ⟨_, rfl⟩ <;> simp

/-- The only message in the queue. -/
theorem lone_put {i : Nat} {w : VM} {s : Vstig.St Unit Obj Obj} (m : Shows kd i w s) {y : VMsg Obj Obj} (h : s.out.put = [y]) :
    ∃ x, w.other.puts = [x] ∧ x.id = y.id ∧ x.k = y.key ∧ seen w.heap x.e = y.elem := by
  have := m.puts
  rw [h] at this
  cases hp : w.other.puts with
  | nil => rw [hp] at this; cases this
  | cons x l =>
    rw [hp] at this
    simp only [List.map_cons, List.map_nil, List.cons.injEq, msgOf, seenMsg, Prod.mk.injEq] at this
    obtain ⟨⟨h1, h2, h3⟩, h4⟩ := this
    rw [List.map_eq_nil_iff.mp h4.symm]
    exact ⟨x, rfl, h1.symm, h2.symm, h3.symm⟩

/-- The message of the example is received. -/
theorem hop (law : Obj.StrcmpLaw E.sc) {me : Nat} {b : VM} {s : Vstig.St Unit Obj Obj} (i : VInv b) (m : Shows .ints me b s) (hz : b.strings.id2str.length + 2 ≤ 65534) :
    ∃ w s', Does E me 30 .ints mgr hook (.recv .put 1 (.int 7) (.int 5) 1 3) b w ∧ Vstig.recv .nil s .put 1 (.int 7) ⟨.int 5, 1, 3⟩ = .ok s' ∧ Shows .ints me w s' ∧ VInv w := by
  have kd7 : ∀ k, AtomVal k (.int 7) → OfKind .ints k := by intro k h; cases h; rfl
  have w7 : WireOk (realKeq E.sc) (.int 7) := by simp [WireOk]
  have w5 : WireOk (realKeq E.sc) (.int 5) := by simp [WireOk]
  obtain ⟨b7, hb7⟩ : ∃ b, ser (.int 7) = .ok b := ⟨_, rfl⟩
  obtain ⟨b5, hb5⟩ : ∃ b, ser (.int 5) = .ok b := ⟨_, rfl⟩
  obtain ⟨w, s2, k, d, h1, h2, h3, h4, h5, h6, _, _, _, _, _, _, h7⟩ :=
    arrive_sim (E := E) (mgr := mgr) (hook := hook) law i m (t := .put) (id := 1) (ts := 1) (robot := 3) (kv := .int 7) (dv := .int 5) trivial trivial kd7 w7 w5 hb7 hb5
      (by decide) (by decide) (by decide) hz
  have d' := Does.recv (base := 30) (kd := .ints) (kv := .int 7) (dv := .int 5) trivial trivial kd7 w7 w5 hb7 hb5 (by decide) (by decide) (by decide) hz h1 h2 h3 h7
  cases h2
  cases h3
  exact ⟨w, s2, d', h4, h5, h6⟩

/-- The events of the example. -/
def tour : List (Nat × StigAct) :=
  [(3, .put 1 (.int 7) (.int 5)), (3, .sent .put 1 (.int 7) ⟨.int 5, 1, 3⟩), (4, .recv .put 1 (.int 7) (.int 5) 1 3), (4, .sent .put 1 (.int 7) ⟨.int 5, 1, 3⟩),
   (3, .recv .put 1 (.int 7) (.int 5) 1 3)]

/-- The hypotheses can be met.  Robot 3 is about to run `put(7, 5)` on the stigmergy 1, which it and robot 4 have created; the message is sent, robot 4 receives it and sends it
on, robot 3 receives that. -/
example (law : Obj.StrcmpLaw E.sc) {a b : VM} {obj ka va : Nat} (ib : VInv b) (e : Method a obj [ka, va]) (hid : HasId E a obj 1) (hk : Holds a.heap ka (.atom (.int 7)))
    (hv : Holds a.heap va (.atom (.int 5))) (ma : Shows .ints 3 a ⟨3, [(1, Vstig.Vs.new)], OutMsg.new, []⟩) (mb : Shows .ints 4 b ⟨4, [(1, Vstig.Vs.new)], OutMsg.new, []⟩)
    (za : a.strings.id2str.length ≤ 100) (za' : ∀ w, stigPut E 3 a = .ok w → w.strings.id2str.length ≤ 101) (zb : b.strings.id2str.length ≤ 100) :
    ∃ v, Swarm E 30 .ints mgr hook (fun i => i = 3 ∨ i = 4) (fun i => if i = 3 then a else b) tour v ∧ (∀ i, i = 3 ∨ i = 4 → Idle 1 (.int 7) (v i)) := by
  obtain ⟨w1, s1, h1, _, h2, m1⟩ := C74_put (E := E) law e hid (by omega) ma hk rfl hv
  have i1 : VInv w1 := by
    obtain ⟨_, _, h, _⟩ := does_shows (mgr := mgr) (hook := hook) law (by decide : 30 + 6 < 2147483648) e.inv ma (.put e hid hk rfl hv (by omega) h1)
    assumption
  have d1 : Does E 3 30 .ints mgr hook (.put 1 (.int 7) (.int 5)) a w1 := .put e hid hk rfl hv (by omega) h1
  have p1 : ∃ y, s1.out.put = [y] ∧ y.id = 1 ∧ y.key = .int 7 ∧ y.elem = ⟨.int 5, 1, 3⟩ := by
    cases h2
    exact ⟨_, rfl, rfl, rfl, rfl⟩
  obtain ⟨y, p1, p2, p3, p4⟩ := p1
  obtain ⟨x1, q1, q2, q3, q4⟩ := lone_put m1 p1
  obtain ⟨o1, _, n1, m2, i2⟩ := sent_sim i1 m1 (t := .put) q1 (by intro h; cases h)
  have d2 : Does E 3 30 .ints mgr hook (.sent .put 1 (.int 7) ⟨.int 5, 1, 3⟩) w1 { w1 with other := stigSent .put w1.other } := by
    have := Does.sent (E := E) (me := 3) (base := 30) (kd := .ints) (mgr := mgr) (hook := hook) (t := .put) q1 (by intro h; cases h)
    rw [q2, q3, q4, p2, p3, p4] at this
    exact this
  obtain ⟨w3, s3, d3, h3, m3, i3⟩ := hop (mgr := mgr) (hook := hook) law ib mb (by omega)
  have p1 : ∃ y, s3.out.put = [y] ∧ y.id = 1 ∧ y.key = .int 7 ∧ y.elem = ⟨.int 5, 1, 3⟩ := by
    cases h3
    exact ⟨_, rfl, rfl, rfl, rfl⟩
  obtain ⟨y', p1', p2', p3', p4'⟩ := p1
  obtain ⟨x3, q1', q2', q3', q4'⟩ := lone_put m3 p1'
  have d4 : Does E 4 30 .ints mgr hook (.sent .put 1 (.int 7) ⟨.int 5, 1, 3⟩) w3 { w3 with other := stigSent .put w3.other } := by
    have := Does.sent (E := E) (me := 4) (base := 30) (kd := .ints) (mgr := mgr) (hook := hook) (t := .put) q1' (by intro h; cases h)
    rw [q2', q3', q4', p2', p3', p4'] at this
    exact this
  obtain ⟨w5, s5, d5, h5, m5, i5⟩ := hop (mgr := mgr) (hook := hook) law i2 m2 (by have := za' w1 h1; show w1.strings.id2str.length + 2 ≤ 65534; omega)
  have sw0 : Swarm E 30 .ints mgr hook (fun i => i = 3 ∨ i = 4) (fun i => if i = 3 then a else b) [] _ := .start
  have nh : ∀ tr (c : StigAct), (∀ t id k d ts r, c ≠ .recv t id k d ts r) → Heard tr c := fun tr c h t id k d ts r hc => absurd hc (h t id k d ts r)
  have sw1 := sw0.act (i := 3) (.inl rfl) d1 (nh _ _ (by simp))
  have sw2 := sw1.act (i := 3) (.inl rfl) d2 (nh _ _ (by simp))
  have sw3 := sw2.act (i := 4) (.inr rfl) d3 (by
    intro t id k d ts r h
    cases h
    exact ⟨3, .int 7, ⟨.int 5, 1, 3⟩, by simp, rfl, rfl⟩)
  have sw4 := sw3.act (i := 4) (.inr rfl) d4 (nh _ _ (by simp))
  have sw5 := sw4.act (i := 3) (.inl rfl) d5 (by
    intro t id k d ts r h
    cases h
    exact ⟨3, .int 7, ⟨.int 5, 1, 3⟩, by simp, rfl, rfl⟩)
  refine ⟨_, sw5, ?_⟩
  have none_left : ∀ {i : Nat} {w : VM} {s : Vstig.St Unit Obj Obj}, Shows .ints i w s → s.out.put = [] → s.out.query = [] → Idle 1 (.int 7) w := by
    intro i w s m hp hq t x hx
    have e1 := m.puts
    have e2 := m.queries
    rw [hp] at e1
    rw [hq] at e2
    cases t
    · rw [show queueOf .put w.other = [] from List.map_eq_nil_iff.mp e1.symm] at hx; cases hx
    · rw [show queueOf .query w.other = [] from List.map_eq_nil_iff.mp e2.symm] at hx; cases hx
  rintro i (rfl | rfl)
  · refine none_left m5 ?_ ?_
    · cases h2; cases n1; cases h5; rfl
    · cases h2; cases n1; cases h5; rfl
  · obtain ⟨o4, _, n4, m4, i4⟩ := sent_sim i3 m3 (t := .put) q1' (by intro h; cases h)
    refine none_left m4 ?_ ?_
    · cases h3; cases n4; rfl
    · cases h3; cases n4; rfl

/-- What the events of the example say. -/
example : KeyKept 1 (.int 7) tour ∧ putsOf 1 (.int 7) tour = 1 ∧ GotAll 1 (.int 7) tour 3 ∧ GotAll 1 (.int 7) tour 4 ∧ Wrote 1 (.int 7) tour ⟨.int 5, 1, 3⟩ := by
  refine ⟨?_, ?_, ?_, ?_, ⟨[], 3, .int 7, .int 5, _, rfl, rfl, by simp, ?_⟩⟩
  · intro i a h
    simp only [tour, List.mem_cons, Prod.mk.injEq, List.not_mem_nil, or_false] at h
    rcases h with ⟨_, rfl⟩ | ⟨_, rfl⟩ | ⟨_, rfl⟩ | ⟨_, rfl⟩ | ⟨_, rfl⟩ <;> simp
  · simp [putsOf, tour, isPut, bare]
  · intro a t k e h _ _
    refine ⟨.put, .int 7, .int 5, 1, 3, by simp [tour], rfl, ?_⟩
    simp [tour] at h
    rcases h with ⟨_, _, _, rfl⟩ | ⟨_, _, _, rfl⟩ <;> rfl
  · intro a t k e h _ _
    refine ⟨.put, .int 7, .int 5, 1, 3, by simp [tour], rfl, ?_⟩
    simp [tour] at h
    rcases h with ⟨_, _, _, rfl⟩ | ⟨_, _, _, rfl⟩ <;> rfl
  · simp [viewOn, VM.View.after, VM.View.write, StigAct.bare, bare]

end Buzz.Props
