import Verif.SwarmSim
import Verif.StigRun

/-
A robot's life with swarms, on the machine, follows `Verif/SwarmTale.lean`.
-/
namespace Buzz.VM

open Buzz.F32 Buzz.Msg Buzz.Heap Buzz.Props Buzz.HeapWire Buzz.OutMsg Buzz.Swarm

variable {E : Env} {base : Nat}

/-- The sender and the payload of a message. -/
def newsBytes : News → Option (Nat × Bytes)
  | .join r s => some (r, SwMsg.bytes (.join s))
  | .leave r s => some (r, SwMsg.bytes (.leave s))
  | .list r ids => some (r, SwMsg.bytes (.list ids))
  | .tick => none

/-- Numbers fit in 16 bits; a list has at least one number and none twice. -/
def NewsOk : News → Prop
  | .join _ s => s < 65536
  | .leave _ s => s < 65536
  | .list _ ids => ids ≠ [] ∧ ids.Nodup ∧ ids.length < 65536 ∧ ∀ i ∈ ids, i < 65536
  | .tick => True

/-- One thing that happens on a machine.  The C functions are entered with the arguments they ask for and succeed; there is room for the strings; the number 65535
is not used as a swarm's (C19). -/
inductive SwDoes (E : Env) (base : Nat) : SwAct → VM → VM → Prop where
  | create {vm w obj a i} : Method vm obj [a] → Holds vm.heap a (.atom (.int i)) → u16 i < 65535 → vm.strings.id2str.length + 7 ≤ 65534 → swCreate E base vm = .ok w →
      SwDoes E base (.op (.create (u16 i))) vm w
  | join {vm w obj id} : Method vm obj [] → HasId E vm obj id → id < 65535 → vm.strings.id2str.length ≤ 65533 → swJoin E vm = .ok w → w.state = .ready →
      SwDoes E base (.op (.join id)) vm w
  | leave {vm w obj id} : Method vm obj [] → HasId E vm obj id → id < 65535 → vm.strings.id2str.length ≤ 65533 → swLeave E vm = .ok w → w.state = .ready →
      SwDoes E base (.op (.leave id)) vm w
  | select {vm w obj a id c} : Method vm obj [a] → HasId E vm obj id → Holds vm.heap a (.atom (.int c)) → id < 65535 → vm.strings.id2str.length ≤ 65533 → swSelect E vm = .ok w →
      w.state = .ready → SwDoes E base (.op (.select id c)) vm w
  | others {vm w obj a id i} : Method vm obj [a] → HasId E vm obj id → Holds vm.heap a (.atom (.int i)) → u16 i < 65535 → vm.strings.id2str.length + 8 ≤ 65534 →
      swOthers E base vm = .ok w → w.state = .ready → SwDoes E base (.op (.others id (u16 i))) vm w
  | setOp {vm w obj ia a b id1 id2 i} (o : SetOp) : Method vm obj [ia, a, b] → Holds vm.heap ia (.atom (.int i)) → HasId E vm a id1 → HasId E vm b id2 → u16 i < 65535 →
      vm.strings.id2str.length + 9 ≤ 65534 → swSetOp E base o vm = .ok w → SwDoes E base (.op (.setOp o (u16 i) id1 id2)) vm w
  | ask {vm w obj id x} : Method vm obj [] → HasId E vm obj id → vm.strings.id2str.length ≤ 65533 → swIn E vm = .ok w → w.state = .ready → Gave vm w (.atom (.int (x : Nat))) →
      SwDoes E base (.ask id x) vm w
  | tick (vm) : SwDoes E base .tick vm (swTick vm)
  | sent {vm m} : swFirst vm.other = some m → SwDoes E base (.sent m) vm (setSwarm (swDrop m vm.other.swarm) vm)
  | heard {vm w e r buf} : newsBytes e = some (r, buf) → NewsOk e → onSwarm r buf vm = .ok w → SwDoes E base (.heard e) vm w
  | age (vm) : SwDoes E base (.heard .tick) vm (swAge vm)

/-- Work that is not about swarms. -/
structure Beside (vm vm' : VM) : Prop where
  inv : VInv vm'
  swarm : vm'.other.swarm = vm.other.swarm

/-- A life: what happens, with any other work in between. -/
inductive SwLife (E : Env) (base : Nat) : List SwAct → VM → VM → Prop where
  | nil (vm : VM) : SwLife E base [] vm vm
  | work {vm u w l} : Beside vm u → SwLife E base l u w → SwLife E base l vm w
  | act {a vm u w l} : SwDoes E base a vm u → SwLife E base l u w → SwLife E base (a :: l) vm w

/-! ### The machine and the tale -/

/-- What the messages that wait say about a swarm. -/
def waitingFor (p : SwarmPart) (i : Nat) : Option Bool :=
  match p.lists with
  | ids :: _ => some (decide (i ∈ ids))
  | [] => if i ∈ p.joins then some true else if i ∈ p.leaves then some false else none

/-- What `in()` would say. -/
def isMember (p : SwarmPart) (i : Nat) : Option Bool := (FMap.get p.swarms i).map fun x => decide (x ≠ 0)

/-- The machine stands where the tale says, having received `h`. -/
structure SwIs (p : SwarmPart) (t : Tale) (h : List News) : Prop where
  inv : SwInv p.q
  ok : FMap.Ok p.swarms
  small : ∀ e ∈ p.swarms, e.1 < 65535 ∧ e.2 < 256
  own : isMember p = t.own
  tells : waitingFor p = t.tells
  list : t.list = !p.lists.isEmpty
  any : t.any = !p.swarms.isEmpty
  count : p.count = t.count
  members : p.members = h.foldl newsStep []
  fine : ∀ e ∈ h, e.Fine

theorem own_st (p : SwarmPart) : own p.st = isMember p := by funext i; rw [own_eq]; rfl

/-- What queues of swarm messages tell. -/
def tellsQ (q : Q Unit Unit Unit) (i : Nat) : Option Bool :=
  match q.list with
  | ids :: _ => some (decide (i ∈ ids))
  | [] => if i ∈ q.join then some true else if i ∈ q.leave then some false else none

theorem fold_tells {q : Q Unit Unit Unit} (w : SwInv q) (v : Nat → Bool) (i : Nat) : (contents q).foldl told v i = (tellsQ q i).getD (v i) := by
  rw [told_contents _ w.one]
  unfold tellsQ
  rcases hl : q.list with _ | ⟨l, r⟩
  · by_cases h1 : i ∈ q.join
    · simp [h1, w.disj i h1]
    · by_cases h2 : i ∈ q.leave <;> simp [h1, h2]
  · obtain ⟨h1, h2⟩ := w.alone (by rw [hl]; simp)
    simp [h1, h2]

theorem getD_ext {o o' : Option Bool} (h : ∀ b, o.getD b = o'.getD b) : o = o' := by
  have h1 := h true
  have h2 := h false
  rcases o with _ | ⟨_ | _⟩ <;> rcases o' with _ | ⟨_ | _⟩ <;> simp_all

theorem appendSwarm_list {q q' : Q Unit Unit Unit} {t : SType} {id : Nat} (h : appendSwarm q t id = .ok q') : q'.list.isEmpty = q.list.isEmpty := by
  unfold appendSwarm at h
  split at h
  · rename_i hl
    obtain ⟨l', _, h2⟩ := Res.bind_eq_ok.mp h
    cases h2
    rw [hl]
    rfl
  · rename_i hl
    cases t <;> cases h <;> simp [hl]

theorem store_frame {s s' : St Unit Unit Unit} {id v : Nat} {t : Option SType} (h : store s id v t = .ok s') : s'.swarms = FMap.set s.swarms id v ∧ s'.out.list.isEmpty = s.out.list.isEmpty := by
  unfold store at h
  cases t with
  | none => cases h; exact ⟨rfl, rfl⟩
  | some t =>
    obtain ⟨q, h1, h2⟩ := Res.bind_eq_ok.mp h
    cases h2
    exact ⟨rfl, appendSwarm_list h1⟩

theorem u8_lt (c : Int) : u8 c < 256 := by unfold u8; omega

/-- What an operation leaves besides memberships and messages. -/
theorem swStep_frame {s s' : St Unit Unit Unit} {o : SwOp} {v : Option Int} (h : swStep s o = .ok (.ret s' v)) (ho : o.target < 65535) :
    (s'.swarms = s.swarms ∨ ∃ x, x < 256 ∧ s'.swarms = FMap.set s.swarms o.target x) ∧ s'.out.list.isEmpty = s.out.list.isEmpty := by
  have st : ∀ {id x t} {f : St Unit Unit Unit → Out (St Unit Unit Unit)}, x < 256 → (∀ s1, ∃ v, f s1 = .ret s1 v) →
      (store s id x t).bind (fun s1 => .ok (f s1)) = .ok (.ret s' v) → id = o.target →
      (s'.swarms = s.swarms ∨ ∃ x, x < 256 ∧ s'.swarms = FMap.set s.swarms o.target x) ∧ s'.out.list.isEmpty = s.out.list.isEmpty := by
    intro id x t f hx hf h hid
    obtain ⟨s1, h1, h2⟩ := Res.bind_eq_ok.mp h
    obtain ⟨v1, hv⟩ := hf s1
    rw [hv] at h2
    cases h2
    obtain ⟨k1, k2⟩ := store_frame h1
    exact ⟨.inr ⟨x, hx, by rw [k1, hid]⟩, k2⟩
  cases o with
  | create i =>
    simp only [SwOp.target] at ho
    have hu : u16 (i : Int) = i := u16_of_lt (by omega)
    simp only [swStep, Res.ok.injEq, Out.ret.injEq] at h
    obtain ⟨h, _⟩ := h
    subst h
    unfold create
    rw [hu]
    split
    · exact ⟨.inl rfl, rfl⟩
    · exact ⟨.inr ⟨0, by decide, rfl⟩, rfl⟩
  | join id =>
    simp only [swStep, Swarm.join] at h
    split at h
    · simp at h
    · exact st (by decide) (fun s1 => ⟨none, rfl⟩) h rfl
  | leave id =>
    simp only [swStep, Swarm.leave] at h
    split at h
    · simp at h
    · exact st (by decide) (fun s1 => ⟨none, rfl⟩) h rfl
  | select id c =>
    simp only [swStep, Swarm.select] at h
    split at h
    · simp at h
    · exact st (u8_lt c) (fun s1 => ⟨none, rfl⟩) h rfl
  | others id i2 =>
    simp only [SwOp.target] at ho
    have hu : u16 (i2 : Int) = i2 := u16_of_lt (by omega)
    simp only [swStep, Swarm.others, hu] at h
    split at h
    · simp at h
    · refine st (x := if _ ≠ 0 then 0 else 1) ?_ (fun s1 => ⟨_, rfl⟩) h rfl
      split <;> decide
  | setOp op i a b =>
    simp only [SwOp.target] at ho
    have hu : u16 (i : Int) = i := u16_of_lt (by omega)
    simp only [swStep, Swarm.setOp, hu] at h
    refine st (x := if _ = true then 1 else 0) ?_ (fun s1 => ⟨_, rfl⟩) h rfl
    split <;> decide

theorem spec_some {m m' : Own} {o : SwOp} (h : specStep m o = some m') : m' o.target ≠ none := by
  cases o with
  | create j =>
    simp only [specStep, Option.some.injEq] at h
    subst h
    simp only [SwOp.target]
    cases hm : m j with
    | some _ => simp [hm]
    | none => simp [Own.set]
  | setOp o j a b => cases o <;> simp only [specStep, Option.some.injEq] at h <;> subst h <;> simp [Own.set, SwOp.target]
  | _ =>
    simp only [specStep, Option.map_eq_some_iff] at h
    obtain ⟨_, _, rfl⟩ := h
    simp [Own.set, SwOp.target]

/-- One operation. -/
theorem op_is {p : SwarmPart} {t : Tale} {h : List News} (r : SwIs p t h) {o : SwOp} (ho : o.target < 65535) {s : St Unit Unit Unit} {v : Option Int}
    (hs : swStep p.st o = .ok (.ret s v)) : SwIs (p.put s) (t.next (.op o)) h ∧ t.Sees (.op o) := by
  have c := C29_step (s := p.st) r.inv o ho
  rw [own_st, r.own] at c
  cases hm : specStep t.own o with
  | none => rw [hm] at c; simp only at c; rw [hs] at c; simp at c
  | some m =>
    rw [hm] at c
    obtain ⟨s', v', c1, c2, _, c4, c5⟩ := c
    rw [hs] at c1
    simp only [Res.ok.injEq, Out.ret.injEq] at c1
    obtain ⟨rfl, _⟩ := c1
    obtain ⟨f1, f2⟩ := swStep_frame hs ho
    have i' : SwInv (p.put s).q := ⟨c2.one, c2.alone, c2.njoin, c2.nleave, c2.disj, c2.nlist⟩
    have own' : isMember (p.put s) = m := by rw [← c4]; funext i; rw [own_eq]; rfl
    have e : t.next (.op o) = { t with own := m, any := true, tells := announce o m t.tells } := by simp only [Tale.next, hm]
    rw [e]
    refine ⟨⟨i', ?_, ?_, own', ?_, ?_, ?_, r.count, r.members, r.fine⟩, by simp [Tale.Sees, hm]⟩
    · show FMap.Ok s.swarms
      rcases f1 with f1 | ⟨x, _, f1⟩
      · rw [f1]; exact r.ok
      · rw [f1]; exact FMap.Ok.set r.ok _ _
    · intro x hx
      have hx : x ∈ s.swarms := hx
      rcases f1 with f1 | ⟨y, hy, f1⟩
      · rw [f1] at hx; exact r.small x hx
      · rw [f1] at hx
        rcases FMap.mem_set.mp hx with ⟨hx, _⟩ | hx
        · exact r.small x hx
        · subst hx; exact ⟨ho, hy⟩
    · funext i
      show tellsQ s.out i = announce o m t.tells i
      refine getD_ext fun b => ?_
      have k := c5 (fun _ => b) i
      rw [fold_tells c2, fold_tells (q := p.st.out) r.inv] at k
      rw [k, ← r.tells]
      unfold announce
      split
      · rfl
      · split <;> rfl
    · show t.list = !s.out.list.isEmpty
      rw [f2]; exact r.list
    · show true = !s.swarms.isEmpty
      have := spec_some hm
      rw [← own'] at this
      unfold isMember at this
      cases hsw : s.swarms with
      | nil => rw [show (p.put s).swarms = s.swarms from rfl, hsw] at this; exact absurd rfl this
      | cons _ _ => rfl

/-- The end of a control step. -/
theorem tick_is {p : SwarmPart} {t : Tale} {h : List News} (r : SwIs p t h) :
    SwIs { p.put (Period.processOut p.count p.st).2 with count := (Period.processOut p.count p.st).1 } (t.next .tick) h := by
  have hc : ((if 0 < p.count then p.count - 1 else p.count) = 0 ∧ p.st.swarms.isEmpty = false) ↔ (t.count ≤ 1 ∧ t.any = true) := by
    rw [r.count, r.any, show p.st.swarms = p.swarms from rfl]
    constructor
    · rintro ⟨h1, h2⟩
      refine ⟨?_, by rw [h2]; rfl⟩
      split at h1 <;> omega
    · rintro ⟨h1, h2⟩
      refine ⟨by split <;> omega, ?_⟩
      cases hp : p.swarms.isEmpty with
      | true => rw [hp] at h2; cases h2
      | false => rfl
  unfold Period.processOut Tale.next
  by_cases hf : t.count ≤ 1 ∧ t.any = true
  · simp only
    rw [if_pos (hc.mpr hf), if_pos hf]
    obtain ⟨a1, a2⟩ := appendList_spec (q := p.q) p.swarms r.ok (fun e he => (r.small e he).1)
    refine ⟨⟨a1.one, a1.alone, a1.njoin, a1.nleave, a1.disj, a1.nlist⟩, r.ok, r.small, r.own, ?_, rfl, r.any, rfl, r.members, r.fine⟩
    funext i
    show tellsQ (appendList p.q p.swarms) i = some (t.own i == some true)
    refine getD_ext fun b => ?_
    have k := a2 (fun _ => b) i
    rw [fold_tells a1] at k
    rw [k, ← r.own, Option.getD_some]
    unfold isMember
    cases hg : FMap.get p.swarms i with
    | none =>
      rw [FMap.get_eq_none_iff] at hg
      simp only [Option.map_none]
      refine (decide_eq_false ?_).trans rfl
      rintro ⟨e, he, rfl, _⟩
      exact hg (List.mem_map.mpr ⟨e, he, rfl⟩)
    | some x =>
      by_cases hx : x = 0
      · subst hx
        refine (decide_eq_false ?_).trans rfl
        rintro ⟨e, he, rfl, h0⟩
        have := FMap.get_of_mem r.ok he
        rw [hg] at this
        exact h0 (Option.some.inj this).symm
      · refine (decide_eq_true ?_).trans (by simp [hx])
        exact ⟨(i, x), FMap.mem_of_get hg, rfl, hx⟩
  · simp only
    rw [if_neg (fun h => hf (hc.mp h)), if_neg hf]
    refine ⟨r.inv, r.ok, r.small, r.own, r.tells, r.list, r.any, ?_, r.members, r.fine⟩
    show (if 0 < p.count then p.count - 1 else p.count) = t.count - 1
    rw [r.count]
    split <;> omega

theorem swFirst_cases {o : Other} {m : SwMsg} (h : swFirst o = some m) :
    (∃ ids rest, o.swarm.lists = ids :: rest ∧ m = .list ids) ∨ (∃ id rest, o.swarm.lists = [] ∧ o.swarm.joins = id :: rest ∧ m = .join id) ∨
      ∃ id rest, o.swarm.lists = [] ∧ o.swarm.joins = [] ∧ o.swarm.leaves = id :: rest ∧ m = .leave id := by
  unfold swFirst at h
  split at h
  · rename_i h2; exact .inl ⟨_, _, h2, (Option.some.inj h).symm⟩
  · rename_i h2 _ _ h5; exact .inr (.inl ⟨_, _, h2, h5, (Option.some.inj h).symm⟩)
  · rename_i h2 _ _ h5 h6; exact .inr (.inr ⟨_, _, h2, h5, h6, (Option.some.inj h).symm⟩)
  · cases h

/-- A message leaves. -/
theorem sent_is {o : Other} {t : Tale} {h : List News} (r : SwIs o.swarm t h) {m : SwMsg} (hm : swFirst o = some m) :
    SwIs (swDrop m o.swarm) (t.next (.sent m)) h ∧ t.Sees (.sent m) := by
  have htl := r.tells
  have hl := r.list
  rcases swFirst_cases hm with ⟨ids, rest, hq, rfl⟩ | ⟨id, rest, hq, hj, rfl⟩ | ⟨id, rest, hq, hj, hv, rfl⟩
  · obtain ⟨h1, h2⟩ := r.inv.alone (by show o.swarm.lists ≠ []; rw [hq]; simp)
    have h1 : o.swarm.joins = [] := h1
    have h2 : o.swarm.leaves = [] := h2
    have hr : rest = [] := by
      have := r.inv.one
      rw [show o.swarm.q.list = o.swarm.lists from rfl, hq, List.length_cons] at this
      exact List.eq_nil_of_length_eq_zero (by omega)
    subst hr
    obtain ⟨n1, n2⟩ := r.inv.nlist ids (by show ids ∈ o.swarm.lists; rw [hq]; exact List.mem_cons_self ..)
    refine ⟨⟨⟨?_, ?_, ?_, ?_, ?_, ?_⟩, r.ok, r.small, r.own, ?_, ?_, r.any, r.count, r.members, r.fine⟩, ?_, n1, ?_⟩
    · show o.swarm.lists.tail.length ≤ 1; rw [hq]; simp
    · intro _; exact ⟨h1, h2⟩
    · exact r.inv.njoin
    · exact r.inv.nleave
    · exact r.inv.disj
    · intro l hl'; rw [show (swDrop (.list ids) o.swarm).q.list = o.swarm.lists.tail from rfl, hq] at hl'; cases hl'
    · funext i
      simp [waitingFor, swDrop, hq, h1, h2, Tale.next]
    · simp [swDrop, hq, Tale.next]
    · rw [hl, hq]; rfl
    · intro i
      rw [← htl]
      simp [waitingFor, hq]
  · have hn : id ∉ rest := by
      have := r.inv.njoin
      rw [show o.swarm.q.join = o.swarm.joins from rfl, hj, List.nodup_cons] at this
      exact this.1
    have hv : id ∉ o.swarm.leaves := r.inv.disj id (by show id ∈ o.swarm.joins; rw [hj]; exact List.mem_cons_self ..)
    refine ⟨⟨⟨r.inv.one, ?_, ?_, r.inv.nleave, ?_, r.inv.nlist⟩, r.ok, r.small, r.own, ?_, r.list, r.any, r.count, r.members, r.fine⟩, ?_, ?_⟩
    · intro h'; exact absurd hq h'
    · have := r.inv.njoin
      rw [show o.swarm.q.join = o.swarm.joins from rfl, hj, List.nodup_cons] at this
      show o.swarm.joins.tail.Nodup
      rw [hj]; exact this.2
    · intro i hi
      exact r.inv.disj i (List.mem_of_mem_tail hi)
    · funext i
      have := congrFun htl i
      simp only [waitingFor, hq, hj, List.mem_cons] at this
      simp only [waitingFor, swDrop, hq, hj, List.tail_cons, Tale.next, ← this]
      by_cases hi : i = id
      · subst hi; simp [hn, hv]
      · simp [hi]
    · rw [hl, hq]; rfl
    · rw [← htl]; simp [waitingFor, hq, hj]
  · have hn : id ∉ rest ∧ rest.Nodup := by
      have := r.inv.nleave
      rw [show o.swarm.q.leave = o.swarm.leaves from rfl, hv, List.nodup_cons] at this
      exact this
    refine ⟨⟨⟨r.inv.one, ?_, r.inv.njoin, ?_, ?_, r.inv.nlist⟩, r.ok, r.small, r.own, ?_, r.list, r.any, r.count, r.members, r.fine⟩, ?_, ?_, ?_⟩
    · intro h'; exact absurd hq h'
    · show o.swarm.leaves.tail.Nodup
      rw [hv]; exact hn.2
    · intro i hi h'
      exact r.inv.disj i hi (List.mem_of_mem_tail h')
    · funext i
      have := congrFun htl i
      simp only [waitingFor, hq, hj, hv, List.mem_cons] at this
      simp only [waitingFor, swDrop, hq, hj, hv, List.tail_cons, Tale.next, ← this]
      by_cases hi : i = id
      · subst hi; simp [hn.1]
      · simp [hi]
    · rw [hl, hq]; rfl
    · rw [← htl]; simp [waitingFor, hq, hj, hv]
    · intro i
      rw [← htl]
      simp only [waitingFor, hq, hj]
      split
      · rename_i h'; cases h'
      · split <;> simp

/-- A message arrives. -/
theorem heard_is {p : SwarmPart} {t : Tale} {h : List News} (r : SwIs p t h) {e : News} (he : e.Fine) :
    SwIs { p with members := newsStep p.members e } t (h ++ [e]) where
  inv := r.inv
  ok := r.ok
  small := r.small
  own := r.own
  tells := r.tells
  list := r.list
  any := r.any
  count := r.count
  members := by rw [List.foldl_append, ← r.members]; rfl
  fine := by
    intro x hx
    rcases List.mem_append.mp hx with hx | hx
    · exact r.fine x hx
    · cases List.mem_singleton.mp hx; exact he

theorem ok_inj {α : Type} {r : Res α} {a b : α} (h : r = .ok a) (h' : r = .ok b) : a = b := by rw [h] at h'; exact Res.ok.inj h'

theorem err_not_ready (u : VM) (e : Err) : (setErr u e).state ≠ .ready := by simp [setErr]

/-- An operation, done by a C function or failing. -/
theorem op_does {vm w : VM} {t : Tale} {h : List News} (r : SwIs vm.other.swarm t h) {o : SwOp} (ho : o.target < 65535) {f : Res VM} {R : VM → Nat → Prop}
    (good : ∀ s v, swStep vm.other.swarm.st o = .ok (.ret s v) → ∃ w, f = .ok w ∧ SwAns vm w (vm.other.swarm.put s) R)
    (bad : swStep vm.other.swarm.st o = .ok .error → ∃ u, f = .ok (setErr u .swarm) ∧ Work vm u) (hf : f = .ok w) (hw : w.state = .ready) :
    SwIs w.other.swarm (t.next (.op o)) h ∧ VInv w ∧ t.Sees (.op o) := by
  have c := C29_step (s := vm.other.swarm.st) r.inv o ho
  cases hm : specStep (own vm.other.swarm.st) o with
  | none =>
    rw [hm] at c
    obtain ⟨u, h1, _⟩ := bad c
    exact absurd (ok_inj hf h1 ▸ hw) (err_not_ready u _)
  | some m =>
    rw [hm] at c
    obtain ⟨s, v, c1, _⟩ := c
    obtain ⟨w', h1, h2⟩ := good s v c1
    cases ok_inj hf h1
    obtain ⟨k1, k2⟩ := op_is r ho c1
    exact ⟨by rw [h2.other]; exact k1, h2.inv, k2⟩

/-- The same for those that do not fail. -/
theorem op_does' {vm w : VM} {t : Tale} {h : List News} (r : SwIs vm.other.swarm t h) {o : SwOp} (ho : o.target < 65535) {f : Res VM} {R : VM → Nat → Prop}
    (good : ∀ s v, swStep vm.other.swarm.st o = .ok (.ret s v) → ∃ w, f = .ok w ∧ SwAns vm w (vm.other.swarm.put s) R)
    (always : ∀ m, ∃ m', specStep m o = some m') (hf : f = .ok w) : SwIs w.other.swarm (t.next (.op o)) h ∧ VInv w ∧ t.Sees (.op o) := by
  have c := C29_step (s := vm.other.swarm.st) r.inv o ho
  obtain ⟨m, hm⟩ := always (own vm.other.swarm.st)
  rw [hm] at c
  obtain ⟨s, v, c1, _⟩ := c
  obtain ⟨w', h1, h2⟩ := good s v c1
  cases ok_inj hf h1
  obtain ⟨k1, k2⟩ := op_is r ho c1
  exact ⟨by rw [h2.other]; exact k1, h2.inv, k2⟩

theorem NewsOk.fine {e : News} (h : NewsOk e) : e.Fine := by
  cases e with
  | list r ids => exact ⟨h.1, h.2.1⟩
  | _ => trivial

theorem handle_news (m : Members) {e : News} {r : Nat} {buf : Bytes} (h : newsBytes e = some (r, buf)) (ok : NewsOk e) : handle m r buf = .ok (newsStep m e) := by
  cases e with
  | join r' s => cases h; exact (C54_joinleave m r s ok).1
  | leave r' s => cases h; exact (C54_joinleave m r s ok).2
  | list r' ids => cases h; exact C54_list m r ids ok.1 ok.2.2.1 ok.2.2.2
  | tick => cases h

/-- One thing that happens. -/
theorem does_is (law : Obj.StrcmpLaw E.sc) (hb : base + 6 < 2147483648) {a : SwAct} {vm w : VM} (d : SwDoes E base a vm w) (i : VInv vm) {t : Tale} {h : List News}
    (r : SwIs vm.other.swarm t h) : SwIs w.other.swarm (t.next a) (h ++ heardBy [a]) ∧ VInv w ∧ t.Sees a := by
  have nil : ∀ {p t}, SwIs p t h → SwIs p t (h ++ []) := by intro p t r; rw [List.append_nil]; exact r
  have n3 : ∀ {p t} {P Q : Prop}, SwIs p t h ∧ P ∧ Q → SwIs p t (h ++ []) ∧ P ∧ Q := fun h => ⟨nil h.1, h.2⟩
  cases d with
  | create e ha hi hz hf =>
    exact n3 (op_does' r (o := .create _) hi (fun s v hs => by obtain ⟨w, h1, h2, _⟩ := create_sw (E := E) law hb e ha hz hs; exact ⟨w, h1, h2⟩) (fun m => ⟨_, rfl⟩) hf)
  | join e hid hi hz hf hw => exact n3 (op_does r (o := .join _) hi (join_sw e hid hz).1 (join_sw e hid hz).2 hf hw)
  | leave e hid hi hz hf hw => exact n3 (op_does r (o := .leave _) hi (leave_sw e hid hz).1 (leave_sw e hid hz).2 hf hw)
  | select e hid ha hi hz hf hw => exact n3 (op_does r (o := .select _ _) hi (select_sw e hid ha hz).1 (select_sw e hid ha hz).2 hf hw)
  | others e hid ha hi hz hf hw => exact n3 (op_does r (o := .others _ _) hi (others_sw law hb e hid ha hz).1 (others_sw law hb e hid ha hz).2 hf hw)
  | setOp o e hi h1 h2 hi' hz hf =>
    refine n3 (op_does' r (o := .setOp o _ _ _) hi' (fun s v hs => setOp_sw law hb o e hi h1 h2 hz hs) (fun m => ?_) hf)
    cases o <;> exact ⟨_, rfl⟩
  | @ask _ _ obj id x e hid hz hf hw hg =>
    cases hx : FMap.get vm.other.swarm.swarms id with
    | none =>
      obtain ⟨u, h1, _⟩ := (in_sw e hid hz).2 hx
      exact absurd (ok_inj hf h1 ▸ hw) (err_not_ready u _)
    | some y =>
      obtain ⟨w', h1, h2⟩ := (in_sw e hid hz).1 y hx (r.small _ (FMap.mem_of_get hx)).2
      cases ok_inj hf h1
      have hc := gave_inj hg h2.ex
      have hxy : x = y := by simpa using hc
      subst hxy
      refine ⟨nil (by rw [h2.other]; exact r), h2.inv, ?_⟩
      show t.own id = some (decide (x ≠ 0))
      rw [← r.own]
      unfold isMember
      rw [hx]
      rfl
  | tick => exact ⟨nil (tick_is r), setSwarm_inv i _, trivial⟩
  | sent hm => exact ⟨nil (sent_is r hm).1, setSwarm_inv i _, (sent_is r hm).2⟩
  | heard hb' hok hf =>
    unfold onSwarm at hf
    rw [handle_news _ hb' hok, Res.ok_bind] at hf
    cases hf
    exact ⟨heard_is r hok.fine, setSwarm_inv i _, trivial⟩
  | age => exact ⟨heard_is r (e := .tick) trivial, setSwarm_inv i _, trivial⟩

theorem heardBy_cons (a : SwAct) (l : List SwAct) : heardBy (a :: l) = heardBy [a] ++ heardBy l := by
  cases a <;> rfl

/-- A life. -/
theorem life_is (law : Obj.StrcmpLaw E.sc) (hb : base + 6 < 2147483648) {l : List SwAct} {vm w : VM} (f : SwLife E base l vm w) (i : VInv vm) {t : Tale} {h : List News}
    (r : SwIs vm.other.swarm t h) : ∃ t', t.Goes l t' ∧ SwIs w.other.swarm t' (h ++ heardBy l) ∧ VInv w := by
  induction f generalizing t h with
  | nil vm => exact ⟨t, rfl, by rw [show heardBy [] = [] from rfl, List.append_nil]; exact r, i⟩
  | work q _ ih => exact ih q.inv (by rw [q.swarm]; exact r)
  | @act a vm u w l d _ ih =>
    obtain ⟨r1, i1, s1⟩ := does_is law hb d i r
    obtain ⟨t', g, r2, i2⟩ := ih i1 r1
    refine ⟨t', ⟨s1, g⟩, ?_, i2⟩
    rw [heardBy_cons, ← List.append_assoc]
    exact r2

end Buzz.VM
