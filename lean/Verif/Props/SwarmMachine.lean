import Verif.SwarmLife
import Verif.Props.StigMachine

/-
C76: swarms on the machine.  The specification is in `Verif/SwarmTale.lean`: `Tale` (what the robot is in, what waits to be sent), `Tale.next` (what an event makes
of it), `Tale.Sees` (what can be seen of an event), `hears` (what a listener makes of a message).
-/
namespace Buzz.Props

open Buzz.F32 Buzz.Msg Buzz.Heap Buzz.Value Buzz.VM Buzz.HeapWire Buzz.OutMsg Buzz.Swarm

variable {E : Env} {base : Nat}

/-- No swarms, nothing waiting to be sent, nothing known of others; the first list is due in ten control steps. -/
def NoSwarm (vm : VM) : Prop := vm.other.swarm = ⟨[], [], [], [], [], 10⟩

theorem C76_start {vm : VM} (h : NoSwarm vm) : SwIs vm.other.swarm Tale.start [] := by
  rw [show vm.other.swarm = _ from h]
  refine ⟨⟨by decide, by decide, by decide, by decide, by decide, by decide⟩, FMap.ok_nil, (fun e he => by cases he), rfl, rfl, rfl, rfl, rfl, rfl, (fun e he => by cases he)⟩

/-- C76.  Whatever happens in a robot's life — its script's work, swarms created, joined, left, selected, combined, asked about, control steps ended, swarm
messages sent and received, in any order and number — for every swarm the robot is in it at the end as the events say, each `in()` on the way gave what the events before
it say, each message sent on the way is one the events before it allow, what waits to be sent about a swarm at the end is what the events say, and another robot
is believed to be in a swarm exactly if the messages received say so. -/
theorem C76_life (law : Obj.StrcmpLaw E.sc) (hb : base + 6 < 2147483648) {l : List SwAct} {vm w : VM} (i : VInv vm) (h0 : NoSwarm vm) (f : SwLife E base l vm w) :
    VInv w ∧ ∃ t, Tale.start.Goes l t ∧ (∀ s, isMember w.other.swarm s = t.own s) ∧ (∀ s, waitingFor w.other.swarm s = t.tells s) ∧
      ∀ r s, isIn w.other.swarm.members r s = believed r s (heardBy l).reverse 0 := by
  obtain ⟨t, g, r, iw⟩ := life_is law hb f i (C76_start h0)
  refine ⟨iw, t, g, congrFun r.own, congrFun r.tells, fun x s => ?_⟩
  rw [r.members, List.nil_append]
  exact C28_membership_follows_news _ (by simpa using r.fine) x s

/-- C76, members.  Another robot has received all messages, in order, and the robot was never silent for more than 50 of its updates: with what still waits
it never believes a member to be outside. -/
theorem C76_members_known (law : Obj.StrcmpLaw E.sc) (hb : base + 6 < 2147483648) {l l' : List SwAct} {vm w vm' w' : VM} (i : VInv vm) (h0 : NoSwarm vm) (f : SwLife E base l vm w)
    (i' : VInv vm') (h0' : NoSwarm vm') (f' : SwLife E base l' vm' w') {r : Nat} (all : from_ r (heardBy l') = sentBy l) (st : Steady r (heardBy l')) (s : Nat)
    (hm : isMember w.other.swarm s = some true) : (waitingFor w.other.swarm s).getD (isIn w'.other.swarm.members r s) = true := by
  obtain ⟨t, g, q, _⟩ := life_is law hb f i (C76_start h0)
  obtain ⟨t', _, q', _⟩ := life_is law hb f' i' (C76_start h0')
  rw [q'.members, List.nil_append, listens _ (by simpa using q'.fine) st, all, q.tells]
  exact members_told l Tale.full_start g (by intro j hj; cases hj) s (by rw [← q.own]; exact hm)

/-- C76, what others know.  If moreover the robot never leaves the swarm by `others` or a set operation, which announce no departure, the other robot believes, with what
still waits, exactly what is true.  (A list without swarms is not taken in, see `C76_forgotten`: the lists received have at least one.) -/
theorem C76_known (law : Obj.StrcmpLaw E.sc) (hb : base + 6 < 2147483648) {l l' : List SwAct} {vm w vm' w' : VM} (i : VInv vm) (h0 : NoSwarm vm) (f : SwLife E base l vm w)
    (i' : VInv vm') (h0' : NoSwarm vm') (f' : SwLife E base l' vm' w') {r : Nat} (all : from_ r (heardBy l') = sentBy l) (st : Steady r (heardBy l')) (s : Nat)
    (o : Tale.start.Open s l) : (waitingFor w.other.swarm s).getD (isIn w'.other.swarm.members r s) = (isMember w.other.swarm s == some true) := by
  obtain ⟨t, g, q, _⟩ := life_is law hb f i (C76_start h0)
  obtain ⟨t', _, q', _⟩ := life_is law hb f' i' (C76_start h0')
  rw [q'.members, List.nil_append, listens _ (by simpa using q'.fine) st, all, q.tells, q.own]
  exact truth_told l Tale.full_start g o rfl

theorem goes_append : ∀ (l1 : List SwAct) {l2 : List SwAct} {t t' : Tale}, t.Goes (l1 ++ l2) t' → ∃ t1, t.Goes l1 t1 ∧ t1.Goes l2 t'
  | [], _, t, _, g => ⟨t, rfl, g⟩
  | _ :: l1, _, _, _, g => by
    obtain ⟨t1, h1, h2⟩ := goes_append l1 g.2
    exact ⟨t1, ⟨g.1, h1⟩, h2⟩

theorem goes_inj : ∀ (l : List SwAct) {t t1 t2 : Tale}, t.Goes l t1 → t.Goes l t2 → t1 = t2
  | [], _, _, _, h1, h2 => by cases h1; cases h2; rfl
  | _ :: l, _, _, _, h1, h2 => goes_inj l h1.2 h2.2

theorem full_goes : ∀ (l : List SwAct) {t t' : Tale}, t.Full → t.Goes l t' → t'.Full
  | [], _, _, f, g => by cases g; exact f
  | a :: l, _, _, f, g => full_goes l (f.next a g.1) g.2

/-- C76, lists repair.  Silent departures matter only until the next list is made: from then on the other robot believes what is true. -/
theorem C76_list_repairs (law : Obj.StrcmpLaw E.sc) (hb : base + 6 < 2147483648) {l1 l2 l' : List SwAct} {vm w vm' w' : VM} (i : VInv vm) (h0 : NoSwarm vm)
    (f : SwLife E base (l1 ++ .tick :: l2) vm w) (i' : VInv vm') (h0' : NoSwarm vm') (f' : SwLife E base l' vm' w') {r : Nat}
    (all : from_ r (heardBy l') = sentBy (l1 ++ .tick :: l2)) (st : Steady r (heardBy l')) (s : Nat) {t1 : Tale} (g1 : Tale.start.Goes l1 t1) (hc : t1.count ≤ 1) (ha : t1.any = true)
    (o : (t1.next .tick).Open s l2) : (waitingFor w.other.swarm s).getD (isIn w'.other.swarm.members r s) = (isMember w.other.swarm s == some true) := by
  obtain ⟨t, g, q, _⟩ := life_is law hb f i (C76_start h0)
  obtain ⟨t', _, q', _⟩ := life_is law hb f' i' (C76_start h0')
  obtain ⟨t1', g1', g2⟩ := goes_append l1 g
  cases goes_inj l1 g1 g1'
  rw [q'.members, List.nil_append, listens _ (by simpa using q'.fine) st, all, q.tells, q.own]
  have hs : sentBy (l1 ++ .tick :: l2) = sentBy l1 ++ sentBy l2 := by unfold sentBy; rw [List.filterMap_append]; rfl
  rw [hs, List.foldl_append]
  refine truth_told l2 ((full_goes l1 Tale.full_start g1).next .tick trivial) g2.2 o ?_
  simp [Tale.told, Tale.next, hc, ha]

/-- A C function that leaves swarms alone. -/
def SwTame (F : CFuns) : Prop := ∀ n u w, VInv u → u.state = .ready → F n u = .ok w → w.state = .ready → Beside u w

theorem swFuns_eq (fuel d n : Nat) (other : CFuns) (vm : VM) : swFuns E base fuel other d n vm =
    if n = 28 then swCreate E base vm
    else if n = 29 then swSetOp E base .union vm
    else if n = 30 then swSetOp E base .intersection vm
    else if n = 31 then swSetOp E base .difference vm
    else if n = 32 then swHere vm
    else if n = base then swOthers E base vm
    else if n = base + 1 then swJoin E vm
    else if n = base + 2 then swLeave E vm
    else if n = base + 3 then swIn E vm
    else if n = base + 4 then swSelect E vm
    else if n = base + 5 then
      match d with
      | 0 => .hang
      | d + 1 => swarmExec E (swFuns E base fuel other d) fuel (FMap.get vm.other.swarm.swarms) vm
    else other n vm := by
  cases d <;> rfl

/-- C76, steps.  A step of the machine leaves swarms alone, unless it calls one of their functions: then that function is entered with the closure's object and the
arguments, all being as before. -/
theorem C76_step {other : CFuns} (ho : SwTame other) {fuel d : Nat} {vm w : VM} (i : VInv vm) (hr : vm.state = .ready) (h : step E (swFuns E base fuel other d) vm = .ok w)
    (hw : w.state = .ready) :
    Beside vm w ∨ ∃ u n l as, Still vm u ∧ EntersC vm u n l as ∧ (∀ obj, l = [obj] → Method u obj as) ∧
      (n = 28 ∧ swCreate E base u = .ok w ∨ n = 29 ∧ swSetOp E base .union u = .ok w ∨ n = 30 ∧ swSetOp E base .intersection u = .ok w ∨
        n = 31 ∧ swSetOp E base .difference u = .ok w ∨ n = 32 ∧ swHere u = .ok w ∨ n = base ∧ swOthers E base u = .ok w ∨ n = base + 1 ∧ swJoin E u = .ok w ∨
        n = base + 2 ∧ swLeave E u = .ok w ∨ n = base + 3 ∧ swIn E u = .ok w ∨ n = base + 4 ∧ swSelect E u = .ok w ∨
        n = base + 5 ∧ ∃ d', d = d' + 1 ∧ swarmExec E (swFuns E base fuel other d') fuel (FMap.get u.other.swarm.swarms) u = .ok w) := by
  rcases step_shape i hr h hw with q | ⟨u, n, l, as, q, hF, en⟩
  · exact .inl ⟨q.quiet.inv, by rw [q.other]⟩
  · have fin : ∀ {P : Prop}, P → Still vm u ∧ EntersC vm u n l as ∧ (∀ obj, l = [obj] → Method u obj as) ∧ P := by
      intro P p
      refine ⟨q, en, ?_, p⟩
      rintro obj rfl
      obtain ⟨sw, h1⟩ := en.syms
      obtain ⟨p, h2, h3⟩ := en.back
      exact ⟨en.inv, en.ready, _, _, p, _, _, _, h1, rfl, h2, h3⟩
    rw [swFuns_eq] at hF
    by_cases hn : n = 28
    · rw [if_pos hn] at hF; exact .inr ⟨u, n, l, as, fin (.inl ⟨hn, hF⟩)⟩
    rw [if_neg hn] at hF
    clear hn
    by_cases hn : n = 29
    · rw [if_pos hn] at hF; exact .inr ⟨u, n, l, as, fin (.inr (.inl ⟨hn, hF⟩))⟩
    rw [if_neg hn] at hF
    clear hn
    by_cases hn : n = 30
    · rw [if_pos hn] at hF; exact .inr ⟨u, n, l, as, fin (.inr (.inr (.inl ⟨hn, hF⟩)))⟩
    rw [if_neg hn] at hF
    clear hn
    by_cases hn : n = 31
    · rw [if_pos hn] at hF; exact .inr ⟨u, n, l, as, fin (.inr (.inr (.inr (.inl ⟨hn, hF⟩))))⟩
    rw [if_neg hn] at hF
    clear hn
    by_cases hn : n = 32
    · rw [if_pos hn] at hF; exact .inr ⟨u, n, l, as, fin (.inr (.inr (.inr (.inr (.inl ⟨hn, hF⟩)))))⟩
    rw [if_neg hn] at hF
    clear hn
    by_cases hn : n = base
    · rw [if_pos hn] at hF; exact .inr ⟨u, n, l, as, fin (.inr (.inr (.inr (.inr (.inr (.inl ⟨hn, hF⟩))))))⟩
    rw [if_neg hn] at hF
    clear hn
    by_cases hn : n = base + 1
    · rw [if_pos hn] at hF; exact .inr ⟨u, n, l, as, fin (.inr (.inr (.inr (.inr (.inr (.inr (.inl ⟨hn, hF⟩)))))))⟩
    rw [if_neg hn] at hF
    clear hn
    by_cases hn : n = base + 2
    · rw [if_pos hn] at hF; exact .inr ⟨u, n, l, as, fin (.inr (.inr (.inr (.inr (.inr (.inr (.inr (.inl ⟨hn, hF⟩))))))))⟩
    rw [if_neg hn] at hF
    clear hn
    by_cases hn : n = base + 3
    · rw [if_pos hn] at hF; exact .inr ⟨u, n, l, as, fin (.inr (.inr (.inr (.inr (.inr (.inr (.inr (.inr (.inl ⟨hn, hF⟩)))))))))⟩
    rw [if_neg hn] at hF
    clear hn
    by_cases hn : n = base + 4
    · rw [if_pos hn] at hF; exact .inr ⟨u, n, l, as, fin (.inr (.inr (.inr (.inr (.inr (.inr (.inr (.inr (.inr (.inl ⟨hn, hF⟩))))))))))⟩
    rw [if_neg hn] at hF
    clear hn
    by_cases hn : n = base + 5
    · rw [if_pos hn] at hF
      cases d with
      | zero => cases hF
      | succ d => exact .inr ⟨u, n, l, as, fin (.inr (.inr (.inr (.inr (.inr (.inr (.inr (.inr (.inr (.inr ⟨hn, d, rfl, hF⟩))))))))))⟩
    · rw [if_neg hn] at hF
      have b := ho n u w en.inv en.ready hF hw
      exact .inl ⟨b.inv, b.swarm.trans (by rw [q.other])⟩

/-- C76, creation.  `swarm.create(i)` does not fail; it gives a table with the number and the six methods, each a C function whose object is that table, and makes the
robot a member of nothing. -/
theorem C76_create (law : Obj.StrcmpLaw E.sc) (hb : base + 6 < 2147483648) {vm : VM} {obj a : Nat} {i : Int} (e : Method vm obj [a]) (ha : Holds vm.heap a (.atom (.int i)))
    (hz : vm.strings.id2str.length + 7 ≤ 65534) :
    ∃ w p, swCreate E base vm = .ok w ∧ SwAns vm w p (IsSwarm E base (u16 i)) ∧
      (∀ s, isMember p s = if s = u16 i ∧ isMember vm.other.swarm s = none then some false else isMember vm.other.swarm s) ∧ waitingFor p = waitingFor vm.other.swarm ∧
      w.strings.id2str.length ≤ vm.strings.id2str.length + 7 := by
  obtain ⟨w, h1, h2, h3⟩ := create_sw (E := E) (base := base) law hb e ha hz (s := (Swarm.create vm.other.swarm.st (u16 i : Int)).1) (v := some _) rfl
  refine ⟨w, _, h1, h2, ?_, ?_, h3⟩
  · intro s
    unfold Swarm.create
    rw [u16_u16]
    cases hg : FMap.get vm.other.swarm.swarms (u16 i) with
    | none =>
      rw [show FMap.get vm.other.swarm.st.swarms (u16 i) = none from hg]
      show (FMap.get (FMap.set vm.other.swarm.swarms (u16 i) 0) s).map _ = _
      rw [FMap.get_set]
      by_cases hs : s = u16 i
      · subst hs; simp [isMember, hg]
      · simp [isMember, hs]
    | some x =>
      rw [show FMap.get vm.other.swarm.st.swarms (u16 i) = some x from hg]
      show isMember vm.other.swarm s = _
      by_cases hs : s = u16 i
      · subst hs; simp [isMember, hg]
      · simp [hs]
  · unfold Swarm.create
    split <;> rfl

/-- C76, unknown swarms: `join`, `leave`, `select`, `others` and `in` on a swarm the robot does not know end the script and change nothing about swarms. -/
theorem C76_unknown {vm : VM} {obj id : Nat} {args : List Nat} (law : Obj.StrcmpLaw E.sc) (hb : base + 6 < 2147483648) (e : Method vm obj args) (hid : HasId E vm obj id)
    (hz : vm.strings.id2str.length + 8 ≤ 65534) (hu : isMember vm.other.swarm id = none) :
    (args = [] → (∃ u, swJoin E vm = .ok (setErr u .swarm) ∧ Work vm u) ∧ (∃ u, swLeave E vm = .ok (setErr u .swarm) ∧ Work vm u) ∧
      ∃ u, swIn E vm = .ok (setErr u .swarm) ∧ Work vm u) ∧
    ∀ a c, args = [a] → Holds vm.heap a (.atom (.int c)) → (∃ u, swSelect E vm = .ok (setErr u .swarm) ∧ Work vm u) ∧
      ∃ u, swOthers E base vm = .ok (setErr u .swarm) ∧ Work vm u := by
  have hg : FMap.get vm.other.swarm.swarms id = none := by simpa [isMember] using hu
  have hg' : FMap.get vm.other.swarm.st.swarms id = none := hg
  constructor
  · rintro rfl
    exact ⟨(join_sw e hid (by omega)).2 (by simp [swStep, Swarm.join, hg']), (leave_sw e hid (by omega)).2 (by simp [swStep, Swarm.leave, hg']), (in_sw e hid (by omega)).2 hg⟩
  · rintro a c rfl ha
    exact ⟨(select_sw e hid ha (by omega)).2 (by simp [swStep, Swarm.select, hg']), (others_sw law hb e hid ha hz).2 (by simp [swStep, Swarm.others, hg'])⟩

/-! ### Cases -/

/-- The hypotheses can be met: a script calls `swarm.create(7)` and `join()` on the result, the message is sent, another robot receives it from robot 5 and believes what is
true. -/
example (law : Obj.StrcmpLaw E.sc) {vm vm' : VM} {a obj : Nat} {st : List Nat} (i : VInv vm) (hr : vm.state = .ready) (hs : vm.stack = a :: st) (ha : Holds vm.heap a (.atom (.int 7)))
    (ho : Live vm.heap obj) (h0 : NoSwarm vm) (hq : vm.other.bcasts = [] ∧ vm.other.puts = [] ∧ vm.other.queries = []) (hz : vm.strings.id2str.length ≤ 100)
    (i' : VInv vm') (h0' : NoSwarm vm') :
    ∃ w w', SwLife E 33 [.op (.create 7), .op (.join 7), .sent (.join 7)] vm w ∧ SwLife E 33 [.heard (.join 5 7)] vm' w' ∧ isMember w.other.swarm 7 = some true ∧
      isIn w'.other.swarm.members 5 7 = true := by
  have hl : ∀ x ∈ [obj], Live vm.heap x := by intro x hx; cases List.mem_singleton.mp hx; exact ho
  have q := enter_quiet i 1 false hl
  have e : Method (enter vm 1 [obj] false) obj [a] := ⟨q.inv, hr, _, _, _, _, _, vm.pc, rfl, by rw [hs]; rfl, rfl, holds_new i.heap _⟩
  have ha' : Holds (enter vm 1 [obj] false).heap a (.atom (.int 7)) := holds_old i.heap ha
  obtain ⟨w1, p1, c1, c2, c3, _, c5⟩ := C76_create (E := E) (base := 33) law (by decide) e ha' (show vm.strings.id2str.length + 7 ≤ 65534 by omega)
  have c5 : w1.strings.id2str.length ≤ vm.strings.id2str.length + 7 := c5
  have d1 : SwDoes E 33 (.op (.create 7)) (enter vm 1 [obj] false) w1 := .create e ha' (by decide) (show vm.strings.id2str.length + 7 ≤ 65534 by omega) c1
  have e0 : (enter vm 1 [obj] false).other.swarm = vm.other.swarm := rfl
  obtain ⟨r1, i1, _⟩ := does_is law (by decide) d1 q.inv (C76_start (vm := enter vm 1 [obj] false) h0)
  obtain ⟨f, b, st1, t, pc, _, _, _, _, hst, hid, _⟩ := c2.ex
  obtain ⟨tt, sid, x, t1, t2, t3, t4, t5⟩ := hid
  have hl1 : ∀ x ∈ [t], Live w1.heap x := by intro x hx; cases List.mem_singleton.mp hx; exact ⟨_, t1⟩
  have q1 := enter_quiet i1 0 false hl1
  have e1 : Method (enter w1 0 [t] false) t [] := ⟨q1.inv, c2.ready, _, _, _, _, _, w1.pc, rfl, rfl, rfl, holds_new i1.heap _⟩
  have hid1 : HasId E (enter w1 0 [t] false) t 7 := ⟨tt, sid, x, holds_old i1.heap t1, t2, t3, holds_old i1.heap t4, by decide⟩
  have z1 : (enter w1 0 [t] false).strings.id2str.length ≤ 65533 := by show w1.strings.id2str.length ≤ _; omega
  have st := C29_step (s := (enter w1 0 [t] false).other.swarm.st) r1.inv (.join 7) (by decide)
  rw [own_st, show (enter w1 0 [t] false).other.swarm = w1.other.swarm from rfl, r1.own] at st
  obtain ⟨s2, v2, j1, _⟩ := st
  obtain ⟨w2, g1, g2⟩ := (join_sw e1 hid1 z1).1 s2 v2 j1
  have d2 : SwDoes E 33 (.op (.join 7)) (enter w1 0 [t] false) w2 := .join e1 hid1 (by decide) z1 g1 g2.ready
  obtain ⟨r2, i2, _⟩ := does_is law (by decide) d2 q1.inv (t := Tale.start.next (.op (.create 7))) (h := []) r1
  have hw2 : w2.other = { vm.other with swarm := w2.other.swarm } := by
    have a2 := g2.other
    have a1 := c2.other
    rw [a2, show (enter w1 0 [t] false).other = w1.other from rfl, a1]
    rfl
  have hL : w2.other.swarm.lists = [] := by
    have := r2.list
    rw [show ((Tale.start.next (.op (.create 7))).next (.op (.join 7))).list = false from rfl] at this
    cases h : w2.other.swarm.lists with
    | nil => rfl
    | cons _ _ => rw [h] at this; cases this
  have hT : ∀ j, waitingFor w2.other.swarm j = if j = 7 then some true else none := by
    intro j
    rw [r2.tells]
    by_cases hj : j = 7
    · subst hj; rfl
    · simp [Tale.next, Tale.start, specStep, announce, SwOp.target, hj, SwOp.decides, SwOp.tellsLeave, Own.set]
  have hF : swFirst w2.other = some (.join 7) := by
    rw [hw2]
    have h7 := hT 7
    unfold waitingFor at h7 hT
    rw [hL] at h7 hT
    cases hJ : w2.other.swarm.joins with
    | nil =>
      rw [hJ] at h7
      simp only [List.not_mem_nil, if_false, if_true] at h7
      split at h7 <;> cases h7
    | cons j js =>
      have := hT j
      rw [hJ] at this
      simp only [List.mem_cons, true_or, if_true] at this
      have hj : j = 7 := by
        by_cases hj : j = 7
        · exact hj
        · rw [if_neg hj] at this; cases this
      simp [swFirst, hq.1, hq.2.1, hq.2.2, hL, hJ, hj]
  have d3 : SwDoes E 33 (.sent (.join 7)) w2 (setSwarm (swDrop (.join 7) w2.other.swarm) w2) := .sent hF
  have life : SwLife E 33 [.op (.create 7), .op (.join 7), .sent (.join 7)] vm (setSwarm (swDrop (.join 7) w2.other.swarm) w2) :=
    .work ⟨q.inv, rfl⟩ (.act d1 (.work ⟨q1.inv, rfl⟩ (.act d2 (.act d3 (.nil _)))))
  have d' : SwDoes E 33 (.heard (.join 5 7)) vm' (setSwarm { vm'.other.swarm with members := newsStep vm'.other.swarm.members (.join 5 7) } vm') :=
    .heard rfl (show 7 < 65536 by decide) (by unfold onSwarm; rw [handle_news _ (e := .join 5 7) rfl (show 7 < 65536 by decide)]; rfl)
  have life' : SwLife E 33 [.heard (.join 5 7)] vm' _ := .act d' (.nil _)
  obtain ⟨_, t', g, k1, k2, _⟩ := C76_life law (by decide) i h0 life
  have ht : t' = _ := g.2.2.2
  have m7 := k1 7
  rw [ht] at m7
  refine ⟨_, _, life, life', m7, ?_⟩
  have := C76_known law (by decide) i h0 life i' h0' life' (r := 5) rfl (by
    intro h1 e h2 h3 hh _ _
    have : h2.count .tick ≤ [News.join 5 7].count .tick := by
      rw [show heardBy [.heard (.join 5 7)] = [News.join 5 7] from rfl] at hh
      rw [hh]
      simp only [List.count_append, List.count_cons]
      omega
    exact Nat.le_trans this (by decide)) 7 (by
    refine ⟨?_, ?_, ?_, trivial⟩ <;> rintro o ho h1 h2 h3 <;> cases ho
    · cases h3
    · rfl)
  rw [k2 7, m7, ht] at this
  exact this

/-- A story: created, joined, announced, ten control steps, the list says so, `others` takes the robot out of swarm 8 without a word, left, announced. -/
example : ∃ t, Tale.start.Goes [.op (.create 7), .op (.join 7), .ask 7 1, .sent (.join 7), .op (.create 8), .op (.select 8 256), .ask 8 0, .op (.select 8 3), .ask 8 1, .tick, .tick, .tick,
    .tick, .tick, .tick, .tick, .tick, .tick, .tick, .op (.others 7 8), .ask 8 0, .sent (.list [8, 7]), .op (.leave 7), .sent (.leave 7)] t ∧ t.tells 8 = none ∧ t.own 8 = some false ∧
    t.own 7 = some false := by
  refine ⟨_, ⟨?_, ?_, ?_, ?_, ?_, ?_, ?_, ?_, ?_, ?_, ?_, ?_, ?_, ?_, ?_, ?_, ?_, ?_, ?_, ?_, ?_, ?_, ?_, ?_, rfl⟩, ?_, ?_, ?_⟩ <;>
    simp (config := { decide := true }) [Tale.Sees, Tale.next, Tale.start, specStep, announce, SwOp.target, SwOp.decides, SwOp.tellsLeave, Own.set]
  intro i
  by_cases h8 : i = 8
  · simp [h8]
  · by_cases h7 : i = 7 <;> simp [h7, h8]

/-- Many steps. -/
def stepsOf (F : CFuns) : Nat → VM → Res VM
  | 0, vm => .ok vm
  | n + 1, vm => do
    let vm ← step host F vm
    stepsOf F n vm

/-- The script `s = swarm.create(7); s.join(); s.leave()` (function 28 is `create`). -/
def swarmScript : Bytes := [3, 0, 115, 0, 106, 111, 105, 110, 0, 108, 101, 97, 118, 101, 0,
  37, 0, 0, 0, 0, 2, 39, 28, 0, 0, 0, 36, 7, 0, 0, 0, 36, 1, 0, 0, 0, 33, 29,
  37, 0, 0, 0, 0, 28, 3, 37, 1, 0, 0, 0, 32, 36, 0, 0, 0, 0, 33, 4,
  37, 0, 0, 0, 0, 28, 3, 37, 2, 0, 0, 0, 32, 36, 0, 0, 0, 0, 33, 4, 1]

def swarmMachine (n : Nat) : Res VM := do
  let vm ← load host swarmScript VM.new
  stepsOf (swFuns host 33 100 Props.noFuns 1) n { vm with nfuns := 33 }

/-- The messages that leave when the queue is emptied. -/
def sendAll : Nat → VM → List SwMsg × VM
  | 0, vm => ([], vm)
  | n + 1, vm =>
    match swFirst vm.other with
    | none => ([], vm)
    | some m => let r := sendAll n (setSwarm (swDrop m vm.other.swarm) vm); (m :: r.1, r.2)

/-- What robot 5's messages make of the members. -/
def hearAll (ms : List SwMsg) : Res Members := ms.foldlM (fun m x => handle m 5 x.bytes) []

/-- The script joins; the message goes out; ten control steps end; the script leaves; the queue is emptied. -/
def forgotten : Res (List SwMsg × Option Bool × Bool) := do
  let vm ← swarmMachine 15
  let r := sendAll 9 vm
  let vm ← stepsOf (swFuns host 33 100 Props.noFuns 1) 8 (swTick^[10] r.2)
  let r' := sendAll 9 vm
  let m ← hearAll (r.1 ++ r'.1)
  pure (r.1 ++ r'.1, isMember r'.2.other.swarm 7, isIn m 5 7)

/-- C76, a departure that nobody hears of: the list that waited when the robot left its only swarm goes out empty, and empty lists are ignored
(buzzvm.c 441).  The robot is out, all messages have been received, and it is believed to be in. -/
theorem C76_forgotten : forgotten = .ok ([.join 7, .list []], some false, true) := by decide +kernel

/-- The same without the list: the departure is heard. -/
example : (do
    let vm ← swarmMachine 15
    let r := sendAll 9 vm
    let vm ← stepsOf (swFuns host 33 100 Props.noFuns 1) 8 (swTick^[9] r.2)
    let r' := sendAll 9 vm
    let m ← hearAll (r.1 ++ r'.1)
    pure (r.1 ++ r'.1, isMember r'.2.other.swarm 7, isIn m 5 7)) = .ok ([SwMsg.join 7, .leave 7], some false, false) := by decide +kernel

/-- The script `swarm.union(9, 1, 2)` (function 29). -/
def unionScript : Bytes := [0, 0, 2, 39, 29, 0, 0, 0, 36, 9, 0, 0, 0, 36, 1, 0, 0, 0, 36, 2, 0, 0, 0, 36, 3, 0, 0, 0, 33, 4, 1]

/-- C76, set operations of things that are not swarms: the script ends with a type error, but the operation is carried out first, counting them as swarms the robot is
in (`buzzswarm_check` returns the machine's state, buzzswarm.c 528, which is not negative and not 0): the robot is a member of swarm 9 and will say so. -/
theorem C76_setop_type_error : (do
    let vm ← load host unionScript VM.new
    let vm ← VM.run host (swFuns host 33 100 Props.noFuns 1) 100 { vm with nfuns := 33 }
    pure (vm.state, vm.error, isMember vm.other.swarm 9, swFirst vm.other)) = .ok (State.error, Err.type, some true, some (.join 9)) := by decide +kernel

/-- **C76** The methods of a swarm's table are the functions with those names, of the library with the functions of swarms. -/
theorem C76_methods {other : CFuns} {fuel d : Nat} {w : VM} {a id : Nat} (hb : 33 ≤ base) (h : IsSwarm E base id w a) :
    MethodIs E (swFuns E base fuel other (d + 1)) w a "others" (swOthers E base) ∧
    MethodIs E (swFuns E base fuel other (d + 1)) w a "join" (swJoin E) ∧
    MethodIs E (swFuns E base fuel other (d + 1)) w a "leave" (swLeave E) ∧
    MethodIs E (swFuns E base fuel other (d + 1)) w a "in" (swIn E) ∧
    MethodIs E (swFuns E base fuel other (d + 1)) w a "select" (swSelect E) ∧
    MethodIs E (swFuns E base fuel other (d + 1)) w a "exec" (fun vm => swarmExec E (swFuns E base fuel other d) fuel (FMap.get vm.other.swarm.swarms) vm) := by
  have g : ∀ x n, (x, n) ∈ swarmMethods.zipIdx → Field E w a x (.clo false ((base + n : Nat) : Int) [a]) := fun x n hx => h.2 (x, n) hx
  have h1 : ∀ n, base + n ≠ 28 ∧ base + n ≠ 29 ∧ base + n ≠ 30 ∧ base + n ≠ 31 ∧ base + n ≠ 32 := by omega
  refine ⟨⟨base + 0, g _ _ (by decide), fun _ => ?_⟩, ⟨base + 1, g _ _ (by decide), fun _ => ?_⟩, ⟨base + 2, g _ _ (by decide), fun _ => ?_⟩, ⟨base + 3, g _ _ (by decide), fun _ => ?_⟩,
    ⟨base + 4, g _ _ (by decide), fun _ => ?_⟩, ⟨base + 5, g _ _ (by decide), fun _ => ?_⟩⟩
  · have := h1 0
    rw [Nat.add_zero] at this ⊢
    simp [swFuns, this]
  all_goals simp [swFuns, h1]

/-- C76, the current swarm: `swarm.id()` gives nil outside of swarms.  Inside it gives the swarm on top of the stack of swarms, also if there is one argument.  The argument of `swarm.id(n)` counts
only if there is a second one: then it gives the `n`-th swarm of the stack from the top, or the last one if there are fewer. -/
theorem C76_here {vm : VM} {args : List Nat} (e : Entry vm args) (hs : ∀ s ∈ vm.swarmstack, s < 65536) :
    (vm.swarmstack = [] → ∃ w, swHere vm = .ok w ∧ Gives vm w (.atom .nil)) ∧
    (∀ s l, vm.swarmstack = s :: l → args.length ≤ 1 → ∃ w, swHere vm = .ok w ∧ Gives vm w (.atom (.int s))) ∧
    (∀ a n s, args[0]? = some a → 2 ≤ args.length → Holds vm.heap a (.atom (.int (n : Nat))) → 1 ≤ n → n < 65536 → vm.swarmstack[min n vm.swarmstack.length - 1]? = some s →
      ∃ w, swHere vm = .ok w ∧ Gives vm w (.atom (.int s))) := by
  have w0 := Work.refl e.inv
  have ok : ∀ {u : VM} (s : Nat), s ∈ vm.swarmstack → VM.CellOk u.heap u.strings (.atom (.int s)) := fun s h => by
    have := hs s h
    show I32 _
    unfold I32
    omega
  refine ⟨fun h => ?_, fun s l h ha => ?_, fun a n s ha hl hn h1 h2 hg => ?_⟩
  · have p := w0.push (c := .atom .nil) trivial
    obtain ⟨x, g1, g2⟩ := ret1_gives e p.1 p.2
    refine ⟨x, ?_, g2⟩
    unfold swHere
    rw [e.lnum, Res.ok_bind, h]
    exact g1
  · have p := w0.push (ok (u := vm) s (by rw [h]; simp))
    obtain ⟨x, g1, g2⟩ := ret1_gives e p.1 p.2
    refine ⟨x, ?_, g2⟩
    unfold swHere
    rw [e.lnum, Res.ok_bind, h]
    rw [if_neg (by simp), if_neg (by omega)]
    simpa [Swarm.swarmId, pushInt] using g1
  · have k := e.load w0 ha hn
    have hmem := List.mem_of_getElem? hg
    have p := k.2.1.push (ok (u := pushAddr vm a) s hmem)
    obtain ⟨x, g1, g2⟩ := ret1_gives e p.1 p.2
    refine ⟨x, ?_, g2⟩
    have hne : vm.swarmstack.isEmpty = false := by
      cases hv : vm.swarmstack with
      | nil => rw [hv] at hmem; cases hmem
      | cons _ _ => rfl
    have hlen : 1 ≤ vm.swarmstack.length := by
      cases hv : vm.swarmstack with
      | nil => rw [hv] at hmem; cases hmem
      | cons _ _ => simp
    have hu : Swarm.u16 (n : Int) = n := by unfold Swarm.u16; omega
    have hid : Swarm.swarmId { (pushAddr vm a).other.swarm.st with stack := (pushAddr vm a).swarmstack } (some (n : Int)) = .ok (some (s : Int)) := by
      unfold Swarm.swarmId
      rw [if_neg (by show ¬ (vm.swarmstack.isEmpty = true); rw [hne]; simp)]
      have h0 : vm.swarmstack ≠ [] := fun h => by rw [h] at hmem; cases hmem
      by_cases hh : vm.swarmstack.length < n
      · rw [Nat.min_eq_right (by omega)] at hg
        simp [pushAddr, hu, hh, hg, h0]
      · rw [Nat.min_eq_left (by omega)] at hg
        simp [pushAddr, hu, hh, hg, show n ≠ 0 by omega]
    unfold swHere
    rw [e.lnum, Res.ok_bind, if_neg (by rw [hne]; simp), if_pos (by omega), k.1, Res.ok_bind, k.2.2, Res.ok_bind]
    simp only [objOf]
    rw [hid, Res.ok_bind]
    exact g1

end Buzz.Props
