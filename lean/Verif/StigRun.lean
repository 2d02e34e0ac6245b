import Verif.StigCreate

/-
A robot's life as far as its stigmergies are concerned: what the script does with them, messages that arrive, messages that leave.
-/
namespace Buzz.VM

open Buzz.F32 Buzz.Msg Buzz.Heap Buzz.Props Buzz.HeapWire Buzz.OutMsg Buzz.Vstig Buzz.Value

variable {me base : Nat} {s : Vstig.St Unit Obj Obj} {kd : Kind} {E : Env}

/-- What happens to the stigmergies. -/
inductive StigAct where
  | create (id : Nat)
  | put (id : Nat) (k v : Obj)
  | get (id : Nat) (k v : Obj)
  | size (id n : Nat)
  | recv (t : VType) (id : Nat) (k d : Obj) (ts robot : Nat)
  | sent (t : VType) (id : Nat) (k : Obj) (e : Elem Obj)

/-- The same on finite maps and queues of values. -/
def Did (a : StigAct) (s s' : Vstig.St Unit Obj Obj) : Prop :=
  match a with
  | .create id => s' = Vstig.create s id
  | .put id k v => Vstig.put .nil s id k v = .ok s'
  | .get id k v => Vstig.get .nil s id k = .ok (v, s')
  | .size id n => s' = s ∧ n = Vstig.size s id
  | .recv t id k d ts robot => Vstig.recv .nil s t id k ⟨d, ts, robot⟩ = .ok s'
  | .sent t id k e => OutMsg.first s.out = some (.vstig t id k e) ∧ ∃ q, OutMsg.next s.out = .ok q ∧ s' = { s with out := q }

/-- One after the other. -/
inductive Ran : List StigAct → Vstig.St Unit Obj Obj → Vstig.St Unit Obj Obj → Prop where
  | nil (s : Vstig.St Unit Obj Obj) : Ran [] s s
  | cons {a l s s1 s2} : Did a s s1 → Ran l s1 s2 → Ran (a :: l) s s2

/-- The function has given this back. -/
def Gave (vm w : VM) (c : Cell) : Prop := ∃ f p st a q, vm.frames = f :: w.frames ∧ vm.rest = (p :: st) :: w.rest ∧ Holds vm.heap p (.atom (.int q)) ∧ w.pc = q ∧
  w.stack = a :: st ∧ Holds w.heap a c

/-- One thing that happens on a machine.  The C functions are entered with their arguments, numbers, strings or nil, and keys of the kind; there is room
for the strings. -/
inductive Does (E : Env) (me base : Nat) (kd : Kind) (mgr : Nat → VElem → VElem → VM → Res (VM × Option VElem)) (hook : Nat → VElem → VM → Res VM) :
    StigAct → VM → VM → Prop where
  | create {vm w obj a id} : Method vm obj [a] → Holds vm.heap a (.atom (.int (id : Nat))) → id < 65536 → vm.strings.id2str.length + 7 ≤ 65534 →
      stigCreate E base vm = .ok w → Does E me base kd mgr hook (.create id) vm w
  | put {vm w obj ka va id k v} : Method vm obj [ka, va] → HasId E vm obj id → Holds vm.heap ka (.atom k) → OfKind kd k → Holds vm.heap va (.atom v) →
      vm.strings.id2str.length ≤ 65533 → stigPut E me vm = .ok w → Does E me base kd mgr hook (.put id k v) vm w
  | get {vm w obj ka id k v} : Method vm obj [ka] → HasId E vm obj id → Holds vm.heap ka (.atom k) → OfKind kd k →
      vm.strings.id2str.length ≤ 65533 → stigGet E me vm = .ok w → Gave vm w (.atom v) → Does E me base kd mgr hook (.get id k v) vm w
  | size {vm w obj id n} : Method vm obj [] → HasId E vm obj id → vm.strings.id2str.length ≤ 65533 →
      (∀ st, FMap.get vm.other.vstigs id = some st → (Dict.entries st.data).length < 2147483648) →
      stigSize E vm = .ok w → Gave vm w (.atom (.int (n : Nat))) → Does E me base kd mgr hook (.size id n) vm w
  | recv {vm w t id k d ts robot kv dv bk bd} : Plain1 kv → Plain1 dv → (∀ k, AtomVal k kv → OfKind kd k) → WireOk (realKeq E.sc) kv → WireOk (realKeq E.sc) dv →
      ser kv = .ok bk → ser dv = .ok bd → id < 65536 → ts < 65536 → robot < 65536 → vm.strings.id2str.length + 2 ≤ 65534 →
      onStig E me mgr hook t (stigBytes t id bk bd ts robot) vm = .ok w → AtomVal k kv → AtomVal d dv →
      ((t = .put ∧ FMap.get vm.other.vstigs id = none) ∨ (StrOk w.strings k ∧ StrOk w.strings d)) →
      Does E me base kd mgr hook (.recv t id k d ts robot) vm w
  | sent {vm t x l} : queueOf t vm.other = x :: l → (t = .query → vm.other.puts = []) →
      Does E me base kd mgr hook (.sent t x.id x.k (seen vm.heap x.e)) vm { vm with other := stigSent t vm.other }

/-- A life. -/
inductive Life (E : Env) (me base : Nat) (kd : Kind) (mgr : Nat → VElem → VElem → VM → Res (VM × Option VElem)) (hook : Nat → VElem → VM → Res VM) :
    List StigAct → VM → VM → Prop where
  | nil (vm : VM) : Life E me base kd mgr hook [] vm vm
  | work {vm u w l} : Quiet vm u → Life E me base kd mgr hook l u w → Life E me base kd mgr hook l vm w
  | act {a vm u w l} : Does E me base kd mgr hook a vm u → Life E me base kd mgr hook l u w → Life E me base kd mgr hook (a :: l) vm w

theorem Answers.shows {vm w : VM} {c : Cell} {s' : Vstig.St Unit Obj Obj} (h : Answers (KeyOk kd vm.strings) me vm w c s') : Shows kd me w s' :=
  h.mirror.resort fun _ _ _ hx hh => keyOk_of h.inv hh hx.kind

theorem gave_inj {vm w : VM} {c c' : Cell} (h : Gave vm w c) (h' : Gave vm w c') : c = c' := by
  obtain ⟨_, _, st, a, _, _, _, _, _, h1, h2⟩ := h
  obtain ⟨_, _, st', a', _, _, _, _, _, h3, h4⟩ := h'
  rw [h1] at h3
  cases (List.cons.inj h3).1
  exact holds_inj h2 h4

theorem atom_inj {sm : SM} (i : Strman.Inv sm) {k k' : Obj} {v : Value.Val} (h : AtomVal k v) (h' : AtomVal k' v) (o : StrOk sm k) (o' : StrOk sm k') : k = k' := by
  cases h <;> cases h' <;> first | rfl | skip
  rw [same_id i o o']

theorem does_shows (law : Obj.StrcmpLaw E.sc) (hb : base + 6 < 2147483648) {mgr : Nat → VElem → VElem → VM → Res (VM × Option VElem)} {hook : Nat → VElem → VM → Res VM}
    {a : StigAct} {vm w : VM} (i : VInv vm) (m : Shows kd me vm s) (d : Does E me base kd mgr hook a vm w) : ∃ s', Did a s s' ∧ Shows kd me w s' ∧ VInv w := by
  cases d with
  | create e ha hid hz hc =>
    obtain ⟨w', h1, h2, h3⟩ := create_sim (E := E) law hb e ha hid hz m
    cases Res.ok.inj (h1.symm.trans hc)
    exact ⟨_, rfl, h3, h2.inv⟩
  | put e hid hk ok hv hz hc =>
    obtain ⟨w', s', h1, h2, h3⟩ := put_sim (E := E) (key_homog law i.strings kd) e hid hz m hk (keyOk_of i hk ok) hv
    cases Res.ok.inj (h1.symm.trans hc)
    exact ⟨_, h2, h3.shows, h3.inv⟩
  | get e hid hk ok hz hc hg =>
    obtain ⟨w', s', v, h1, h2, h3⟩ := get_sim (E := E) (key_homog law i.strings kd) e hid hz m hk (keyOk_of i hk ok)
    cases Res.ok.inj (h1.symm.trans hc)
    have := gave_inj hg h3.ex
    cases this
    exact ⟨_, h2, h3.shows, h3.inv⟩
  | @size _ _ obj id n e hid hz hn hc hg =>
    have hs : Vstig.size s id < 2147483648 := by
      unfold Vstig.size
      have := m.stigs id
      cases h1 : FMap.get vm.other.vstigs id with
      | none => rw [stigs_none m h1]; simp
      | some st =>
        obtain ⟨vs, h2, h3⟩ := stigs_both m h1
        rw [h2]
        simp only
        rw [h3.same.length_eq, List.length_map]
        exact hn st h1
    obtain ⟨w', h1, h3⟩ := size_sim (E := E) e hid hz m hs
    cases Res.ok.inj (h1.symm.trans hc)
    have := gave_inj hg h3.ex
    injection this with this
    injection this with this
    exact ⟨_, ⟨rfl, by exact_mod_cast this⟩, h3.shows, h3.inv⟩
  | @recv _ _ t id k d ts robot kv dv bk bd hkp hdp hkd hkw hdw hk hd hid hts hrob hz hc ka da ho =>
    obtain ⟨w', s', k', d', h1, h2, h3, h4, h5, h6, _, _, _, _, _, _, h7⟩ := arrive_sim (mgr := mgr) (hook := hook) law i m hkp hdp hkd hkw hdw hk hd hid hts hrob hz (t := t)
    cases Res.ok.inj (h1.symm.trans hc)
    by_cases hu : t = .put ∧ FMap.get vm.other.vstigs id = none
    · obtain ⟨rfl, hu⟩ := hu
      have any : ∀ k d, Vstig.recv .nil s .put id k ⟨d, ts, robot⟩ = .ok s := by
        intro k d
        show Vstig.recvPut .nil s id k ⟨d, ts, robot⟩ = .ok s
        unfold Vstig.recvPut
        rw [stigs_none m hu]
      cases Res.ok.inj ((any k' d').symm.trans h4)
      exact ⟨_, any k d, h5, h6⟩
    · obtain ⟨o1, o2⟩ := ho.resolve_left hu
      obtain ⟨o3, o4⟩ := h7.resolve_left hu
      cases atom_inj h6.strings h2 ka o3 o1
      cases atom_inj h6.strings h3 da o4 o2
      exact ⟨_, h4, h5, h6⟩
  | sent hq hp =>
    obtain ⟨q', h1, h2, h3, h4⟩ := sent_sim i m hq hp
    exact ⟨_, ⟨h1, q', h2, rfl⟩, h3, h4⟩

theorem life_shows (law : Obj.StrcmpLaw E.sc) (hb : base + 6 < 2147483648) {mgr : Nat → VElem → VElem → VM → Res (VM × Option VElem)} {hook : Nat → VElem → VM → Res VM}
    {l : List StigAct} {vm w : VM} (f : Life E me base kd mgr hook l vm w) : ∀ {s : Vstig.St Unit Obj Obj}, VInv vm → Shows kd me vm s →
      ∃ s', Ran l s s' ∧ Shows kd me w s' ∧ VInv w := by
  induction f with
  | nil vm => exact fun i m => ⟨_, .nil _, m, i⟩
  | work q _ ih => exact fun i m => ih q.inv (q.shows m)
  | act d _ ih =>
    intro s i m
    obtain ⟨s1, h1, h2, h3⟩ := does_shows law hb i m d
    obtain ⟨s2, k1, k2⟩ := ih h3 h2
    exact ⟨s2, .cons h1 k1, k2⟩

end Buzz.VM
