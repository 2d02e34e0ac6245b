import Verif.Props.Stigmergy

/-
Property C24: replicas of a stigmergy agree when nothing is deleted.

Any number of robots, each with its own id, run concurrently.  A message enters the network when a robot takes it from its
output queue; any message ever sent can be received by any robot any number of times, in any order, or never.
-/
namespace Buzz.Props

open Buzz.OutMsg Buzz.Vstig

section Replicas

variable {B K D : Type} [DecidableEq K] [DecidableEq D]

/-- What happened, as far as it can be observed. -/
inductive NetEv (K D : Type) where
  | wrote (i id : Nat) (k : K) (e : Elem D)
  | erased (i id : Nat) (k : K)
  | reset (i id : Nat)
  | sent (i : Nat) (t : VType) (id : Nat) (k : K) (e : Elem D)
  | got (i : Nat) (t : VType) (id : Nat) (k : K) (e : Elem D)
  | quiet

/-- The robots by id. -/
abbrev Robots (B K D : Type) := Nat → St B K D

/-- Robot `i` goes to state `s`. -/
def at_ (σ : Robots B K D) (i : Nat) (s : St B K D) : Robots B K D := fun j => if j = i then s else σ j

/-- One step of one robot; `tr` is what happened before. -/
inductive NetStep (nil : D) (tr : List (NetEv K D)) (σ : Robots B K D) : NetEv K D → Robots B K D → Prop
  | put (i id : Nat) (k : K) (d : D) (e : Elem D) (s : St B K D) (hd : d ≠ nil) (h : Vstig.put nil (σ i) id k d = .ok s)
      (he : Vstig.entry s id k = some e) : NetStep nil tr σ (.wrote i id k e) (at_ σ i s)
  | noput (i id : Nat) (k : K) (d : D) (s : St B K D) (hd : d ≠ nil) (h : Vstig.put nil (σ i) id k d = .ok s)
      (he : Vstig.entry s id k = none) : NetStep nil tr σ .quiet (at_ σ i s)
  | erase (i id : Nat) (k : K) (s : St B K D) (h : Vstig.put nil (σ i) id k nil = .ok s) :
      NetStep nil tr σ (.erased i id k) (at_ σ i s)
  | get (i id : Nat) (k : K) (d : D) (s : St B K D) (h : Vstig.get nil (σ i) id k = .ok (d, s)) : NetStep nil tr σ .quiet (at_ σ i s)
  | create (i id : Nat) : NetStep nil tr σ (.reset i id) (at_ σ i (create (σ i) id))
  | send (i : Nat) (t : VType) (id : Nat) (k : K) (e : Elem D) (q : Q B K D) (hf : first (σ i).out = some (.vstig t id k e))
      (h : next (σ i).out = .ok q) : NetStep nil tr σ (.sent i t id k e) (at_ σ i { σ i with out := q })
  | sendOther (i : Nat) (q : Q B K D) (hf : ∀ t id k e, first (σ i).out ≠ some (.vstig t id k e))
      (h : next (σ i).out = .ok q) : NetStep nil tr σ .quiet (at_ σ i { σ i with out := q })
  | recv (i j : Nat) (t : VType) (id : Nat) (k : K) (e : Elem D) (s : St B K D) (hm : NetEv.sent j t id k e ∈ tr)
      (h : Vstig.recv nil (σ i) t id k e = .ok s) : NetStep nil tr σ (.got i t id k e) (at_ σ i s)
  | broadcast (i : Nat) (b : B) : NetStep nil tr σ .quiet (at_ σ i { σ i with out := appendBroadcast (σ i).out b })
  | list (i : Nat) (ids : List (Nat × Nat)) : NetStep nil tr σ .quiet (at_ σ i { σ i with out := appendList (σ i).out ids })
  | swarm (i : Nat) (t : SType) (id : Nat) (q : Q B K D) (h : appendSwarm (σ i).out t id = .ok q) :
      NetStep nil tr σ .quiet (at_ σ i { σ i with out := q })

/-- An execution. -/
inductive NetRun (nil : D) (σ₀ : Robots B K D) : List (NetEv K D) → Robots B K D → Prop
  | start : NetRun nil σ₀ [] σ₀
  | step {tr : List (NetEv K D)} {σ σ' : Robots B K D} {ev : NetEv K D} (r : NetRun nil σ₀ tr σ) (h : NetStep nil tr σ ev σ') :
      NetRun nil σ₀ (tr ++ [ev]) σ'

/-- The entries written to a key. -/
def writes (id : Nat) (k : K) (tr : List (NetEv K D)) : List (Elem D) :=
  tr.filterMap (fun ev => match ev with
    | .wrote _ id' k' e => if id' = id ∧ k' = k then some e else none
    | _ => none)

/-- The entries for a key a robot came across: written by it or received. -/
def heard (i id : Nat) (k : K) (tr : List (NetEv K D)) : List (Elem D) :=
  tr.filterMap (fun ev => match ev with
    | .wrote j id' k' e => if j = i ∧ id' = id ∧ k' = k then some e else none
    | .got j _ id' k' e => if j = i ∧ id' = id ∧ k' = k then some e else none
    | _ => none)

/-- Nobody deletes the key or recreates the stigmergy. -/
def Undeleted (id : Nat) (k : K) (tr : List (NetEv K D)) : Prop :=
  ∀ ev ∈ tr, (∀ i, ev ≠ .erased i id k) ∧ ∀ i, ev ≠ .reset i id

/-- Before the key is used: robot ids are distinct, everyone has the stigmergy with the default conflict manager, nobody an
entry, and nothing is queued. -/
def Fresh (id : Nat) (k : K) (σ : Robots B K D) : Prop :=
  ∀ i, (σ i).me = i ∧ Plain (σ i) id ∧ Vstig.entry (σ i) id k = none ∧ (σ i).out = new

/-- A step at robot `i` that does not concern the key. -/
structure Off (s s' : St B K D) (id : Nat) (k : K) : Prop where
  inv : Inv s'.out
  me : s'.me = s.me
  plain : Plain s id → Plain s' id
  entry : Vstig.entry s' id k = Vstig.entry s id k
  msgs : waitingMsg s' id k = waitingMsg s id k

theorem upd_off {s s' : St B K D} {id id' : Nat} {k k' : K} {o : Option (Elem D)} {f : VType × Elem D → Prop}
    (u : Upd s s' id' k' o f) (h : ¬ (id = id' ∧ k = k')) : Off s s' id k :=
  ⟨u.inv, u.me, u.plain id, by rw [u.entry, if_neg h], u.others id k h⟩

theorem out_off {s : St B K D} {q : Q B K D} (h : Inv q) {id : Nat} {k : K} (hv : queued q id k = queued s.out id k) :
    Off s { s with out := q } id k :=
  ⟨h, rfl, fun h => h, rfl, by simp [waitingMsg, hv]⟩

theorem inv_same {q q' : Q B K D} (v : Inv q) (h1 : q'.put = q.put) (h2 : q'.query = q.query) (h3 : q'.vstig = q.vstig)
    (h4 : q'.brk = q.brk) : Inv q' := by
  refine ⟨by rw [h1]; exact v.tput, by rw [h2]; exact v.tquery, ?_, ?_, ?_⟩
  · simp only [vmsgs, h1, h2]; exact v.nodup
  · simp only [vmsgs, h1, h2, h4]; exact v.bound
  · simp only [vmsgs, h1, h2, look, h3]; exact v.look

theorem same_off {s : St B K D} (w : Inv s.out) {q : Q B K D} (h1 : q.put = s.out.put) (h2 : q.query = s.out.query)
    (h3 : q.vstig = s.out.vstig) (h4 : q.brk = s.out.brk) (id : Nat) (k : K) : Off s { s with out := q } id k :=
  out_off (inv_same w h1 h2 h3 h4) (by simp [queued, vmsgs, h1, h2])

theorem swarm_off {s : St B K D} (w : Inv s.out) {t : SType} {i : Nat} {q : Q B K D} (h : appendSwarm s.out t i = .ok q)
    (id : Nat) (k : K) : Off s { s with out := q } id k := by
  unfold appendSwarm at h
  split at h
  · cases he : editList _ t i with
    | ok l => rw [he] at h; cases h; refine same_off w ?_ ?_ ?_ ?_ id k <;> rfl
    | ub => rw [he] at h; cases h
    | abort => rw [he] at h; cases h
    | hang => rw [he] at h; cases h
  · cases t <;> · cases h; refine same_off w ?_ ?_ ?_ ?_ id k <;> rfl

theorem create_off {s : St B K D} (w : Inv s.out) {i id : Nat} (h : i ≠ id) (k : K) : Off s (create s i) id k := by
  refine ⟨w, rfl, ?_, ?_, rfl⟩
  · rintro ⟨vs, h1, h2⟩
    exact ⟨vs, by simp only [create, FMap.get_set, FMap.get_del]; rw [if_neg (Ne.symm h), if_neg (Ne.symm h), h1], h2⟩
  · unfold Vstig.entry create
    simp only [FMap.get_set, FMap.get_del]
    rw [if_neg (Ne.symm h), if_neg (Ne.symm h)]

/-- What a step does to the key. -/
inductive KeyStep (nil : D) (tr : List (NetEv K D)) (σ : Robots B K D) (id : Nat) (k : K) : NetEv K D → Robots B K D → Prop
  | off (i : Nat) (s : St B K D) (ev : NetEv K D) (hw : writes id k [ev] = []) (hh : ∀ j, heard j id k [ev] = [])
      (hs : ∀ j t e, ev ≠ .sent j t id k e) (u : Off (σ i) s id k) : KeyStep nil tr σ id k ev (at_ σ i s)
  | write (i : Nat) (s : St B K D) (e : Elem D) (hn : e.data ≠ nil) (hr : e.robot = (σ i).me)
      (ht : e.ts = match Vstig.entry (σ i) id k with | some x => (x.ts + 1) % 65536 | none => 1) (inv : Inv s.out) (hm : s.me = (σ i).me)
      (hp : Plain (σ i) id → Plain s id) (he : Vstig.entry s id k = some e)
      (hq : (∀ x, waitingMsg (σ i) id k = some x → x.2.ts < e.ts) → waitingMsg s id k = some (.put, e))
      (hq' : waitingMsg s id k = waitingMsg (σ i) id k ∨ waitingMsg s id k = some (.put, e)) :
      KeyStep nil tr σ id k (.wrote i id k e) (at_ σ i s)
  | read (i : Nat) (s : St B K D) (u : Upd (σ i) s id k (Vstig.entry (σ i) id k)
      (fun x => x = (.query, (Vstig.entry (σ i) id k).getD ⟨nil, 0, (σ i).me⟩))) : KeyStep nil tr σ id k .quiet (at_ σ i s)
  | send (i : Nat) (s : St B K D) (t : VType) (e : Elem D) (inv : Inv s.out) (hm : s.me = (σ i).me) (hp : Plain (σ i) id → Plain s id)
      (he : Vstig.entry s id k = Vstig.entry (σ i) id k) (hq : waitingMsg (σ i) id k = some (t, e)) (hq' : waitingMsg s id k = none) :
      KeyStep nil tr σ id k (.sent i t id k e) (at_ σ i s)
  | forward (i j : Nat) (s : St B K D) (t : VType) (e : Elem D) (hm : NetEv.sent j t id k e ∈ tr) (hn : Vstig.entry (σ i) id k = none)
      (ht : t = .query) (he : e.data = nil) (u : Upd (σ i) s id k none (fun x => x = (.query, e))) :
      KeyStep nil tr σ id k (.got i t id k e) (at_ σ i s)
  | recv (i j : Nat) (s : St B K D) (t : VType) (e : Elem D) (hm : NetEv.sent j t id k e ∈ tr)
      (hn : ¬ (Vstig.entry (σ i) id k = none ∧ t = .query ∧ e.data = nil))
      (u : Upd (σ i) s id k (some (merge nil (Vstig.entry (σ i) id k) e)) (fun x => x = (.put, merge nil (Vstig.entry (σ i) id k) e))) :
      KeyStep nil tr σ id k (.got i t id k e) (at_ σ i s)

/-- Every step is one of these. -/
theorem keyStep (nil : D) {tr : List (NetEv K D)} {σ σ' : Robots B K D} {ev : NetEv K D} (id : Nat) (k : K)
    (w : ∀ i, Inv (σ i).out) (hp : ∀ i, Plain (σ i) id) (h : NetStep nil tr σ ev σ') (hu : Undeleted id k [ev]) :
    KeyStep nil tr σ id k ev σ' := by
  have hu := hu ev (by simp)
  cases h with
  | put i id' k' d e s hd h he =>
    by_cases hc : id = id' ∧ k = k'
    · obtain ⟨rfl, rfl⟩ := hc
      obtain ⟨vs, hvs, _⟩ := hp i
      obtain ⟨s1, s2, e1, h1, _, h2, h3, h4, h5, _, h7⟩ := C27_put nil (σ i) (w i) id k vs hvs d hd
      obtain ⟨s3, e3, g1, _, u, _⟩ := put_upd nil (w i) hvs k d hd
      rw [h] at h1 g1
      cases h1; cases g1
      have : e1 = e := by rw [he] at h2; exact (Option.some.inj h2).symm
      subst this
      have : e3 = e1 := by have := u.entry id k; rw [he] at this; simpa using this.symm
      subst this
      refine .write i s e3 (by rw [h3]; exact hd) h4 h5 u.inv u.me (u.plain id) he h7 ?_
      rcases u.msgs with h | ⟨x, rfl, h, _⟩
      · exact .inl h
      · exact .inr h
    · obtain ⟨o, f, u⟩ := put_frame nil (w i) h
      have hc' : ¬ (id' = id ∧ k' = k) := fun h => hc ⟨h.1.symm, h.2.symm⟩
      exact .off i s _ (by simp [writes, hc']) (fun j => by simp [heard, hc']) (by simp) (upd_off u hc)
  | noput i id' k' d s hd h he =>
    obtain ⟨o, f, u⟩ := put_frame nil (w i) h
    by_cases hc : id = id' ∧ k = k'
    · obtain ⟨rfl, rfl⟩ := hc
      obtain ⟨vs, hvs, _⟩ := hp i
      obtain ⟨s1, s2, e1, h1, _, h2, _⟩ := C27_put nil (σ i) (w i) id k vs hvs d hd
      rw [h] at h1; cases h1
      rw [he] at h2; cases h2
    · exact .off i s _ (by simp [writes]) (fun j => by simp [heard]) (by simp) (upd_off u hc)
  | erase i id' k' s h =>
    obtain ⟨o, f, u⟩ := put_frame nil (w i) h
    have hc : ¬ (id = id' ∧ k = k') := by rintro ⟨rfl, rfl⟩; exact hu.1 i rfl
    exact .off i s _ (by simp [writes]) (fun j => by simp [heard]) (by simp) (upd_off u hc)
  | get i id' k' d s h =>
    by_cases hc : id = id' ∧ k = k'
    · obtain ⟨rfl, rfl⟩ := hc
      obtain ⟨vs, hvs, _⟩ := hp i
      obtain ⟨s1, h1, u, _⟩ := get_upd nil (w i) hvs k
      rw [h] at h1; cases h1
      exact .read i s u
    · obtain ⟨o, f, u⟩ := get_frame nil (w i) h
      exact .off i s _ (by simp [writes]) (fun j => by simp [heard]) (by simp) (upd_off u hc)
  | create i id' =>
    have hc : id' ≠ id := by rintro rfl; exact hu.2 i rfl
    exact .off i _ _ (by simp [writes]) (fun j => by simp [heard]) (by simp) (create_off (w i) hc k)
  | send i t id' k' e q hf h =>
    obtain ⟨q', h1, hi, _, h2⟩ := next_spec (w i)
    rw [h] at h1; cases h1
    rcases h2 with ⟨t1, id1, k1, e1, g1, g2, ⟨m, hm, m1, m2, m3, m4⟩, g4⟩ | ⟨g1, _⟩
    · rw [hf] at g1
      simp only [Option.some.injEq, Msg.vstig.injEq] at g1
      obtain ⟨rfl, rfl, rfl, rfl⟩ := g1
      by_cases hc : id = id' ∧ k = k'
      · obtain ⟨rfl, rfl⟩ := hc
        refine .send i _ t e hi rfl (fun h => h) rfl ?_ (by simp [waitingMsg, g2])
        have := (queued_iff (w i) id k m).mpr ⟨hm, m1, m2⟩
        simp [waitingMsg, this, m3, m4]
      · refine .off i _ _ (by simp [writes]) (fun j => by simp [heard]) ?_ (out_off hi ?_)
        · intro j t1 e1 h; cases h; exact hc ⟨rfl, rfl⟩
        · apply Option.ext
          intro m'
          rw [queued_iff hi, queued_iff (w i), g4]
          constructor
          · rintro ⟨⟨a, _⟩, b, c⟩; exact ⟨a, b, c⟩
          · rintro ⟨a, b, c⟩
            exact ⟨⟨a, by rw [b, c]; exact hc⟩, b, c⟩
    · exact absurd hf (g1 _ _ _ _)
  | sendOther i q hf h =>
    obtain ⟨q', h1, hi, _, h2⟩ := next_spec (w i)
    rw [h] at h1; cases h1
    rcases h2 with ⟨t1, id1, k1, e1, g1, _⟩ | ⟨_, g⟩
    · exact absurd g1 (hf _ _ _ _)
    · exact .off i _ _ (by simp [writes]) (fun j => by simp [heard]) (by simp) (out_off hi (by simp [queued, g]))
  | recv i j t id' k' e s hm h =>
    by_cases hc : id = id' ∧ k = k'
    · obtain ⟨rfl, rfl⟩ := hc
      cases t with
      | put =>
        obtain ⟨s1, h1, u⟩ := recvPut_upd nil (w i) (hp i) k e
        simp only [Vstig.recv] at h
        rw [h] at h1; cases h1
        exact .recv i j s .put e hm (by simp) u
      | query =>
        obtain ⟨s1, h1, u⟩ := recvQuery_upd nil (w i) (hp i) k e
        simp only [Vstig.recv] at h
        rw [h] at h1; cases h1
        rcases u with ⟨a, b, u⟩ | ⟨a, u⟩
        · exact .forward i j s .query e hm a rfl b u
        · exact .recv i j s .query e hm (fun h => a ⟨h.1, h.2.2⟩) u
    · obtain ⟨o, f, u⟩ := recv_frame nil (w i) h
      have hc' : ¬ (id' = id ∧ k' = k) := fun h => hc ⟨h.1.symm, h.2.symm⟩
      exact .off i s _ (by simp [writes]) (fun j => by simp [heard, hc']) (by simp) (upd_off u hc)
  | broadcast i b =>
    exact .off i _ _ (by simp [writes]) (fun j => by simp [heard]) (by simp) (by refine same_off (w i) ?_ ?_ ?_ ?_ id k <;> rfl)
  | list i ids =>
    exact .off i _ _ (by simp [writes]) (fun j => by simp [heard]) (by simp) (by refine same_off (w i) ?_ ?_ ?_ ?_ id k <;> rfl)
  | swarm i t id' q h =>
    exact .off i _ _ (by simp [writes]) (fun j => by simp [heard]) (by simp) (swarm_off (w i) h id k)

/-- An entry that may be on its way: one that was written, or the blank of a query. -/
def Known (nil : D) (W : List (Elem D)) (t : VType) (e : Elem D) : Prop :=
  e ∈ W ∨ t = .query ∧ e.data = nil ∧ e.ts = 0

/-- A robot holds something at least as new. -/
def Has (nil : D) (s : St B K D) (id : Nat) (k : K) (e : Elem D) : Prop :=
  ∃ l, Vstig.entry s id k = some l ∧ Older nil e l

/-- The invariant of executions. -/
structure NetInv (nil : D) (tr : List (NetEv K D)) (σ : Robots B K D) (id : Nat) (k : K) : Prop where
  inv : ∀ i, Inv (σ i).out
  me : ∀ i, (σ i).me = i
  plain : ∀ i, Plain (σ i) id
  real : ∀ i l, Vstig.entry (σ i) id k = some l → l ∈ writes id k tr
  wait : ∀ i x, waitingMsg (σ i) id k = some x → Known nil (writes id k tr) x.1 x.2 ∧ (x.2 ∈ writes id k tr → Has nil (σ i) id k x.2)
  sent : ∀ i t e, NetEv.sent i t id k e ∈ tr → Known nil (writes id k tr) t e ∧ (e ∈ writes id k tr → Has nil (σ i) id k e)
  nonnil : ∀ e ∈ writes id k tr, e.data ≠ nil
  range : ∀ e ∈ writes id k tr, 1 ≤ e.ts ∧ e.ts ≤ (writes id k tr).length
  latest : ∀ e ∈ writes id k tr, Has nil (σ e.robot) id k e
  coherent : Coherent (· ∈ writes id k tr)
  heard : ∀ i, ∀ e ∈ heard i id k tr, e ∈ writes id k tr → Has nil (σ i) id k e
  known : ∀ i, ∀ e ∈ Props.heard i id k tr, e ∈ writes id k tr ∨ e.data = nil ∧ e.ts = 0
  spread : ∀ e ∈ writes id k tr, ∃ x ∈ writes id k tr, Older nil e x ∧
    ((∃ i t, waitingMsg (σ i) id k = some (t, x)) ∨ ∃ i t, NetEv.sent i t id k x ∈ tr)

theorem writes_append (id : Nat) (k : K) (a b : List (NetEv K D)) : writes id k (a ++ b) = writes id k a ++ writes id k b := by
  simp [writes]

theorem heard_append (i id : Nat) (k : K) (a b : List (NetEv K D)) : heard i id k (a ++ b) = heard i id k a ++ heard i id k b := by
  simp [heard]

theorem at_same (σ : Robots B K D) (i : Nat) (s : St B K D) : at_ σ i s i = s := by simp [at_]

theorem at_ne (σ : Robots B K D) {i j : Nat} (s : St B K D) (h : j ≠ i) : at_ σ i s j = σ j := by simp [at_, h]

theorem at_cases {P : St B K D → Prop} {σ : Robots B K D} {i : Nat} {s : St B K D} (h : P s) (h' : ∀ j, P (σ j)) (j : Nat) : P (at_ σ i s j) := by
  unfold at_; split
  · exact h
  · exact h' j

/-- A robot's knowledge only grows. -/
theorem has_at {nil : D} {σ : Robots B K D} {i : Nat} {s : St B K D} {id : Nat} {k : K}
    (hg : ∀ l, Vstig.entry (σ i) id k = some l → Has nil s id k l) {j : Nat} {e : Elem D} (h : Has nil (σ j) id k e) :
    Has nil (at_ σ i s j) id k e := by
  by_cases hj : j = i
  · subst hj
    rw [at_same]
    obtain ⟨l, hl, ho⟩ := h
    obtain ⟨l', hl', ho'⟩ := hg l hl
    exact ⟨l', hl', older_trans nil ho ho'⟩
  · rw [at_ne σ s hj]; exact h

/-- The invariant when no entry is written, from what happened to the robot that moved. -/
theorem netInv_move (nil : D) {tr : List (NetEv K D)} {σ : Robots B K D} {id : Nat} {k : K} (v : NetInv nil tr σ id k)
    {ev : NetEv K D} {i : Nat} {s : St B K D} (hw : writes id k [ev] = []) (inv : Inv s.out) (me : s.me = (σ i).me)
    (plain : Plain s id)
    (grow : ∀ l, Vstig.entry (σ i) id k = some l → Has nil s id k l)
    (real : ∀ l, Vstig.entry s id k = some l → l ∈ writes id k tr)
    (wait : ∀ x, waitingMsg s id k = some x → waitingMsg (σ i) id k = some x ∨
      Known nil (writes id k tr) x.1 x.2 ∧ (x.2 ∈ writes id k tr → Has nil s id k x.2))
    (sent : ∀ j t e, ev = .sent j t id k e → j = i ∧ waitingMsg (σ i) id k = some (t, e))
    (hheard : ∀ j, ∀ e ∈ Props.heard j id k [ev], j = i ∧ (e ∈ writes id k tr → Has nil s id k e) ∧ (e ∈ writes id k tr ∨ e.data = nil ∧ e.ts = 0))
    (lose : ∀ x, waitingMsg (σ i) id k = some x → (∃ y, waitingMsg s id k = some y ∧ y.2 ∈ writes id k tr ∧ Older nil x.2 y.2) ∨
      waitingMsg s id k = some x ∨ ev = .sent i x.1 id k x.2 ∨ x.2 ∉ writes id k tr) :
    NetInv nil (tr ++ [ev]) (at_ σ i s) id k := by
  have hW : writes id k (tr ++ [ev]) = writes id k tr := by rw [writes_append, hw, List.append_nil]
  have has : ∀ {j e}, Has nil (σ j) id k e → Has nil (at_ σ i s j) id k e := fun h => has_at grow h
  refine ⟨?_, ?_, ?_, ?_, ?_, ?_, ?_, ?_, ?_, ?_, ?_, ?_, ?_⟩
  · exact at_cases (P := fun s => Inv s.out) inv v.inv
  · intro j
    by_cases hj : j = i
    · subst hj; rw [at_same, me]; exact v.me j
    · rw [at_ne σ s hj]; exact v.me j
  · exact at_cases (P := fun s => Plain s id) plain v.plain
  · rw [hW]
    exact at_cases (P := fun s => ∀ l, Vstig.entry s id k = some l → l ∈ writes id k tr) real v.real
  · rw [hW]
    intro j x hx
    by_cases hj : j = i
    · subst hj
      rw [at_same] at hx
      rcases wait x hx with h | h
      · have := v.wait j x h
        exact ⟨this.1, fun h => has (this.2 h)⟩
      · rw [at_same]; exact h
    · rw [at_ne σ s hj] at hx
      rw [at_ne σ s hj]
      exact v.wait j x hx
  · rw [hW]
    intro j t e h
    rcases List.mem_append.mp h with h | h
    · have := v.sent j t e h
      exact ⟨this.1, fun h => has (this.2 h)⟩
    · obtain ⟨rfl, h⟩ := sent j t e (List.mem_singleton.mp h).symm
      have := v.wait j _ h
      exact ⟨this.1, fun h => has (this.2 h)⟩
  · rw [hW]; exact v.nonnil
  · rw [hW]; exact v.range
  · rw [hW]; exact fun e he => has (v.latest e he)
  · rw [hW]; exact v.coherent
  · rw [hW]
    intro j e he hm
    rw [heard_append] at he
    rcases List.mem_append.mp he with he | he
    · exact has (v.heard j e he hm)
    · obtain ⟨rfl, h, _⟩ := hheard j e he
      rw [at_same]; exact h hm
  · rw [hW]
    intro j e he
    rw [heard_append] at he
    rcases List.mem_append.mp he with he | he
    · exact v.known j e he
    · exact (hheard j e he).2.2
  · rw [hW]
    intro e he
    obtain ⟨x, hx, ho, ⟨j, t, h⟩ | ⟨j, t, h⟩⟩ := v.spread e he
    · by_cases hj : j = i
      · subst hj
        rcases lose _ h with ⟨y, h1, h2, h3⟩ | h1 | h1 | h1
        · exact ⟨y.2, h2, older_trans nil ho h3, .inl ⟨j, y.1, by rw [at_same]; exact h1⟩⟩
        · exact ⟨x, hx, ho, .inl ⟨j, t, by rw [at_same]; exact h1⟩⟩
        · exact ⟨x, hx, ho, .inr ⟨j, t, by simp [h1]⟩⟩
        · exact absurd hx h1
      · exact ⟨x, hx, ho, .inl ⟨j, t, by rw [at_ne σ s hj]; exact h⟩⟩
    · exact ⟨x, hx, ho, .inr ⟨j, t, by simp [h]⟩⟩

/-- A message came in and was merged. -/
theorem merge_known (nil : D) {tr : List (NetEv K D)} {σ : Robots B K D} {id : Nat} {k : K} (v : NetInv nil tr σ id k) (i : Nat)
    {t : VType} {e : Elem D} (hk : Known nil (writes id k tr) t e)
    (hn : ¬ (Vstig.entry (σ i) id k = none ∧ t = .query ∧ e.data = nil)) :
    merge nil (Vstig.entry (σ i) id k) e ∈ writes id k tr ∧
    (∀ l, Vstig.entry (σ i) id k = some l → Older nil l (merge nil (Vstig.entry (σ i) id k) e)) ∧
    (e ∈ writes id k tr → Older nil e (merge nil (Vstig.entry (σ i) id k) e)) := by
  cases hl : Vstig.entry (σ i) id k with
  | none =>
    rcases hk with h | ⟨h1, h2, _⟩
    · exact ⟨h, by simp, fun _ => older_refl nil e⟩
    · exact absurd ⟨hl, h1, h2⟩ hn
  | some l =>
    have hlw := v.real i l hl
    rcases hk with h | ⟨h1, h2, h3⟩
    · obtain ⟨h4, h5, h6⟩ := merge_max nil l e (fun a b => v.coherent l e hlw h a b)
      refine ⟨?_, fun l' hl' => by cases hl'; exact h5, fun _ => h6⟩
      rcases h4 with h4 | h4 <;> rw [h4] <;> assumption
    · have := (v.range l hlw).1
      have hm : merge nil (some l) e = l := by
        simp only [merge]; rw [if_neg (by omega), if_neg (by omega)]
      rw [hm]
      exact ⟨hlw, fun l' hl' => by cases hl'; exact older_refl nil l, fun h => absurd h2 (v.nonnil e h)⟩

theorem netInv_step (nil : D) {tr : List (NetEv K D)} {σ σ' : Robots B K D} {id : Nat} {k : K} {ev : NetEv K D}
    (v : NetInv nil tr σ id k) (h : KeyStep nil tr σ id k ev σ') (hb : (writes id k (tr ++ [ev])).length ≤ 65535) :
    NetInv nil (tr ++ [ev]) σ' id k := by
  have refl : ∀ (i : Nat) l, Vstig.entry (σ i) id k = some l → Has nil (σ i) id k l := fun i l h => ⟨l, h, older_refl nil l⟩
  cases h with
  | off i s ev hw hh hs u =>
    refine netInv_move nil v hw u.inv u.me (u.plain (v.plain i)) ?_ ?_ ?_ ?_ ?_ ?_
    · intro l hl; exact ⟨l, by rw [u.entry]; exact hl, older_refl nil l⟩
    · intro l hl; rw [u.entry] at hl; exact v.real i l hl
    · intro x hx; rw [u.msgs] at hx; exact .inl hx
    · intro j t e h; exact absurd h (hs j t e)
    · intro j e h; rw [hh] at h; simp at h
    · intro x hx; rw [u.msgs]; exact .inr (.inl hx)
  | read i s u =>
    have he : Vstig.entry s id k = Vstig.entry (σ i) id k := by rw [u.entry]; simp
    refine netInv_move nil v (by simp [writes]) u.inv u.me (u.plain id (v.plain i)) ?_ ?_ ?_ ?_ ?_ ?_
    · intro l hl; exact ⟨l, by rw [he]; exact hl, older_refl nil l⟩
    · intro l hl; rw [he] at hl; exact v.real i l hl
    · intro x hx
      rcases u.msgs with h | ⟨y, rfl, h1, h2⟩
      · rw [h] at hx; exact .inl hx
      · rw [h1] at hx
        cases hx
        right
        cases hl : Vstig.entry (σ i) id k with
        | none =>
          refine ⟨.inr ⟨rfl, rfl, rfl⟩, fun h => ?_⟩
          exact absurd rfl (v.nonnil _ h)
        | some l =>
          exact ⟨.inl (v.real i l hl), fun _ => ⟨l, by rw [he, hl], older_refl nil l⟩⟩
    · intro j t e h; cases h
    · intro j e h; simp [heard] at h
    · intro x hx
      rcases u.msgs with h | ⟨y, rfl, h1, h2⟩
      · rw [h]; exact .inr (.inl hx)
      · have hlt := h2 x hx
        cases hl : Vstig.entry (σ i) id k with
        | none => rw [hl] at hlt; simp at hlt
        | some l =>
          rw [hl] at hlt h1
          exact .inl ⟨_, h1, v.real i l hl, .inl hlt⟩
  | send i s t e inv hm hp he hq hq' =>
    refine netInv_move nil v (by simp [writes]) inv hm (hp (v.plain i)) ?_ ?_ ?_ ?_ ?_ ?_
    · intro l hl; exact ⟨l, by rw [he]; exact hl, older_refl nil l⟩
    · intro l hl; rw [he] at hl; exact v.real i l hl
    · intro x hx; rw [hq'] at hx; cases hx
    · intro j t' e' h; cases h; exact ⟨rfl, hq⟩
    · intro j e h; simp [heard] at h
    · intro x hx; rw [hq] at hx; cases hx; exact .inr (.inr (.inl rfl))
  | forward i j s t e hm hn ht hd u =>
    have he : Vstig.entry s id k = none := by rw [u.entry]; simp
    have hk := (v.sent j t e hm).1
    have hnw : e ∉ writes id k tr := fun h => v.nonnil e h hd
    have h0 : e.ts = 0 := by
      rcases hk with h | h
      · exact absurd h hnw
      · exact h.2.2
    refine netInv_move nil v (by simp [writes]) u.inv u.me (u.plain id (v.plain i)) ?_ ?_ ?_ ?_ ?_ ?_
    · intro l hl; rw [hn] at hl; cases hl
    · intro l hl; rw [he] at hl; cases hl
    · intro x hx
      rcases u.msgs with h | ⟨y, rfl, h1, h2⟩
      · rw [h] at hx; exact .inl hx
      · rw [h1] at hx
        cases hx
        exact .inr ⟨.inr ⟨rfl, hd, h0⟩, fun h => absurd h hnw⟩
    · intro j t e h; cases h
    · intro j' e' h
      simp only [heard, List.filterMap_cons, List.filterMap_nil] at h
      by_cases hj : i = j'
      · subst hj
        simp at h
        subst h
        exact ⟨rfl, fun h => absurd h hnw, .inr ⟨hd, h0⟩⟩
      · simp [hj] at h
    · intro x hx
      rcases u.msgs with h | ⟨y, rfl, h1, h2⟩
      · rw [h]; exact .inr (.inl hx)
      · have hlt := h2 x hx
        simp [h0] at hlt
  | recv i j s t e hm hn u =>
    have hk := (v.sent j t e hm).1
    obtain ⟨m1, m2, m3⟩ := merge_known nil v i hk hn
    have he : Vstig.entry s id k = some (merge nil (Vstig.entry (σ i) id k) e) := by rw [u.entry]; simp
    refine netInv_move nil v (by simp [writes]) u.inv u.me (u.plain id (v.plain i)) ?_ ?_ ?_ ?_ ?_ ?_
    · intro l hl; exact ⟨_, he, m2 l hl⟩
    · intro l hl; rw [he] at hl; cases hl; exact m1
    · intro x hx
      rcases u.msgs with h | ⟨y, rfl, h1, h2⟩
      · rw [h] at hx; exact .inl hx
      · rw [h1] at hx
        cases hx
        exact .inr ⟨.inl m1, fun _ => ⟨_, he, older_refl nil _⟩⟩
    · intro j t e h; cases h
    · intro j' e' h
      simp only [heard, List.filterMap_cons, List.filterMap_nil] at h
      by_cases hj : i = j'
      · subst hj
        simp at h
        subst h
        refine ⟨rfl, fun h => ⟨_, he, m3 h⟩, ?_⟩
        rcases hk with h | h
        · exact .inl h
        · exact .inr h.2
      · simp [hj] at h
    · intro x hx
      rcases u.msgs with h | ⟨y, rfl, h1, h2⟩
      · rw [h]; exact .inr (.inl hx)
      · exact .inl ⟨_, h1, m1, .inl (h2 x hx)⟩
  | write i s e hn hr ht inv hm hp he hq hq' =>
    have hW : writes id k (tr ++ [.wrote i id k e]) = writes id k tr ++ [e] := by rw [writes_append]; simp [writes]
    rw [hW] at hb
    simp only [List.length_append, List.length_singleton] at hb
    have hei : e.robot = i := by rw [hr, v.me]
    have hts : (∀ l, Vstig.entry (σ i) id k = some l → l.ts < e.ts) ∧ 1 ≤ e.ts ∧ e.ts ≤ (writes id k tr).length + 1 := by
      cases hl : Vstig.entry (σ i) id k with
      | none =>
        rw [hl] at ht
        exact ⟨by simp, by simp only at ht; omega, by simp only at ht; omega⟩
      | some l =>
        rw [hl] at ht
        simp only at ht
        have := (v.range l (v.real i l hl)).2
        rw [Nat.mod_eq_of_lt (by omega)] at ht
        exact ⟨fun l' h => by cases h; omega, by omega, by omega⟩
    have older : ∀ l, Vstig.entry (σ i) id k = some l → Older nil l e := fun l hl => .inl (hts.1 l hl)
    have grow : ∀ l, Vstig.entry (σ i) id k = some l → Has nil s id k l := fun l hl => ⟨e, he, older l hl⟩
    have has : ∀ {j e'}, Has nil (σ j) id k e' → Has nil (at_ σ i s j) id k e' := fun h => has_at grow h
    have hase : Has nil (at_ σ i s i) id k e := by rw [at_same]; exact ⟨e, he, older_refl nil e⟩
    have hwlt : ∀ x, waitingMsg (σ i) id k = some x → x.2.ts < e.ts := by
      intro x hx
      obtain ⟨h1, h2⟩ := v.wait i x hx
      rcases h1 with h1 | h1
      · obtain ⟨l, hl, ho⟩ := h2 h1
        have := hts.1 l hl
        unfold Older at ho
        omega
      · omega
    have hnew : waitingMsg s id k = some (.put, e) := hq hwlt
    have mine : ∀ x ∈ writes id k tr, x.robot = i → x.ts < e.ts := by
      intro x hx hxi
      obtain ⟨l, hl, ho⟩ := v.latest x hx
      rw [hxi] at hl
      have := hts.1 l hl
      unfold Older at ho
      omega
    have known : ∀ {t x}, Known nil (writes id k tr) t x → Known nil (writes id k tr ++ [e]) t x := by
      intro t x h
      rcases h with h | h
      · exact .inl (List.mem_append_left _ h)
      · exact .inr h
    refine ⟨?_, ?_, ?_, ?_, ?_, ?_, ?_, ?_, ?_, ?_, ?_, ?_, ?_⟩
    · exact at_cases (P := fun s => Inv s.out) inv v.inv
    · intro j
      by_cases hj : j = i
      · subst hj; rw [at_same, hm]; exact v.me j
      · rw [at_ne σ s hj]; exact v.me j
    · exact at_cases (P := fun s => Plain s id) (hp (v.plain i)) v.plain
    · rw [hW]
      refine at_cases (P := fun s => ∀ l, Vstig.entry s id k = some l → l ∈ writes id k tr ++ [e]) ?_ ?_
      · intro l hl; rw [he] at hl; cases hl; simp
      · intro j l hl; exact List.mem_append_left _ (v.real j l hl)
    · rw [hW]
      intro j x hx
      by_cases hj : j = i
      · subst hj
        rw [at_same, hnew] at hx
        cases hx
        exact ⟨.inl (by simp), fun _ => hase⟩
      · rw [at_ne σ s hj] at hx
        have := v.wait j x hx
        refine ⟨known this.1, fun h => ?_⟩
        rcases this.1 with h1 | h1
        · exact has (this.2 h1)
        · rcases List.mem_append.mp h with h | h
          · exact has (this.2 h)
          · simp only [List.mem_singleton] at h
            rw [h] at h1; exact absurd h1.2.1 hn
    · rw [hW]
      intro j t x h
      have h : NetEv.sent j t id k x ∈ tr := by simpa using h
      have := v.sent j t x h
      refine ⟨known this.1, fun h => ?_⟩
      rcases this.1 with h1 | h1
      · exact has (this.2 h1)
      · rcases List.mem_append.mp h with h | h
        · exact has (this.2 h)
        · simp only [List.mem_singleton] at h
          rw [h] at h1; exact absurd h1.2.1 hn
    · rw [hW]
      intro x hx
      rcases List.mem_append.mp hx with h | h
      · exact v.nonnil x h
      · simp only [List.mem_singleton] at h; rw [h]; exact hn
    · rw [hW]
      intro x hx
      rcases List.mem_append.mp hx with h | h
      · have := v.range x h; simp; omega
      · simp only [List.mem_singleton] at h; rw [h]; simp; omega
    · rw [hW]
      intro x hx
      rcases List.mem_append.mp hx with h | h
      · exact has (v.latest x h)
      · simp only [List.mem_singleton] at h; rw [h, hei]; exact hase
    · rw [hW]
      intro a b ha hb h1 h2
      rcases List.mem_append.mp ha with p | p <;> rcases List.mem_append.mp hb with q | q
      · exact v.coherent a b p q h1 h2
      · have hbe := List.mem_singleton.mp q
        have := mine a p (by rw [h2, hbe, hei])
        rw [← hbe] at this
        omega
      · have hae := List.mem_singleton.mp p
        have := mine b q (by rw [← h2, hae, hei])
        rw [← hae] at this
        omega
      · rw [List.mem_singleton.mp p, List.mem_singleton.mp q]
    · rw [hW]
      intro j x hx hxw
      rw [heard_append] at hx
      rcases List.mem_append.mp hx with hx | hx
      · rcases v.known j x hx with h | h
        · exact has (v.heard j x hx h)
        · rcases List.mem_append.mp hxw with h1 | h1
          · exact absurd h.1 (v.nonnil x h1)
          · simp only [List.mem_singleton] at h1; rw [h1] at h; exact absurd h.1 hn
      · by_cases hj : i = j
        · subst hj
          simp [heard] at hx
          subst hx; exact hase
        · simp [heard, hj] at hx
    · rw [hW]
      intro j x hx
      rw [heard_append] at hx
      rcases List.mem_append.mp hx with hx | hx
      · rcases v.known j x hx with h | h
        · exact .inl (List.mem_append_left _ h)
        · exact .inr h
      · by_cases hj : i = j
        · subst hj
          simp [heard] at hx
          subst hx; left; simp
        · simp [heard, hj] at hx
    · rw [hW]
      intro x hx
      have he' : e ∈ writes id k tr ++ [e] := by simp
      rcases List.mem_append.mp hx with h | h
      · obtain ⟨y, hy, ho, ⟨j, t, h⟩ | ⟨j, t, h⟩⟩ := v.spread x h
        · by_cases hj : j = i
          · subst hj
            exact ⟨e, he', older_trans nil ho (.inl (hwlt _ h)), .inl ⟨j, .put, by rw [at_same]; exact hnew⟩⟩
          · exact ⟨y, List.mem_append_left _ hy, ho, .inl ⟨j, t, by rw [at_ne σ s hj]; exact h⟩⟩
        · exact ⟨y, List.mem_append_left _ hy, ho, .inr ⟨j, t, by simp [h]⟩⟩
      · simp only [List.mem_singleton] at h
        subst h
        exact ⟨x, he', older_refl nil x, .inl ⟨i, .put, by rw [at_same]; exact hnew⟩⟩

theorem netInv_run (nil : D) {σ₀ σ : Robots B K D} {tr : List (NetEv K D)} {id : Nat} {k : K} (hf : Fresh id k σ₀)
    (r : NetRun nil σ₀ tr σ) (hu : Undeleted id k tr) (hb : (writes id k tr).length ≤ 65535) : NetInv nil tr σ id k := by
  induction r with
  | start =>
    have hq : ∀ i, waitingMsg (σ₀ i) id k = none := by
      intro i
      simp [waitingMsg, (hf i).2.2.2, queued, vmsgs, new]
    refine ⟨fun i => by rw [(hf i).2.2.2]; exact new_inv, fun i => (hf i).1, fun i => (hf i).2.1, ?_, ?_, by simp, ?_, ?_, ?_, ?_, ?_, ?_, ?_⟩
    · intro i l h; rw [(hf i).2.2.1] at h; cases h
    · intro i x h; rw [hq] at h; cases h
    all_goals simp [writes, heard, Coherent]
  | @step tr σ σ' ev r h ih =>
    have hb' : (writes id k tr).length ≤ 65535 := by rw [writes_append, List.length_append] at hb; omega
    have v := ih (fun e he => hu e (by simp [he])) hb'
    exact netInv_step nil v (keyStep nil id k v.inv v.plain h (fun e he => hu e (by simp at he; simp [he]))) hb

/-- C24, monotone and coherent.  Along any execution without deletions the timestamp a robot holds for the key never
decreases, and any two entries for the key that robots hold with the same timestamp and author are the same. -/
theorem C24_monotone (nil : D) {σ₀ σ σ' : Robots B K D} {tr : List (NetEv K D)} {ev : NetEv K D} {id : Nat} {k : K} (hf : Fresh id k σ₀)
    (r : NetRun nil σ₀ tr σ) (h : NetStep nil tr σ ev σ') (hu : Undeleted id k (tr ++ [ev]))
    (hb : (writes id k (tr ++ [ev])).length ≤ 65535) :
    (∀ i l, Vstig.entry (σ i) id k = some l → ∃ l', Vstig.entry (σ' i) id k = some l' ∧ l.ts ≤ l'.ts) ∧
    ∀ i j l l', Vstig.entry (σ i) id k = some l → Vstig.entry (σ j) id k = some l' → l.ts = l'.ts → l.robot = l'.robot → l = l' := by
  have hb' : (writes id k tr).length ≤ 65535 := by rw [writes_append, List.length_append] at hb; omega
  have v := netInv_run nil hf r (fun e he => hu e (by simp [he])) hb'
  have ks := keyStep nil id k v.inv v.plain h (fun e he => hu e (by simp at he; simp [he]))
  constructor
  · have fin : ∀ i s, (∀ l, Vstig.entry (σ i) id k = some l → Has nil s id k l) → ∀ j l, Vstig.entry (σ j) id k = some l →
        ∃ l', Vstig.entry (at_ σ i s j) id k = some l' ∧ l.ts ≤ l'.ts := by
      intro i s hg j l hl
      obtain ⟨l', h1, h2⟩ := has_at hg (j := j) ⟨l, hl, older_refl nil l⟩
      exact ⟨l', h1, by unfold Older at h2; omega⟩
    cases ks with
    | off i s ev hw hh hs u => exact fin i s (fun l hl => ⟨l, by rw [u.entry]; exact hl, older_refl nil l⟩)
    | read i s u => exact fin i s (fun l hl => ⟨l, by rw [u.entry]; simpa using hl, older_refl nil l⟩)
    | send i s t e inv hm hp he hq hq' => exact fin i s (fun l hl => ⟨l, by rw [he]; exact hl, older_refl nil l⟩)
    | forward i j s t e hm hn ht hd u => exact fin i s (fun l hl => by rw [hn] at hl; cases hl)
    | recv i j s t e hm hn u =>
      exact fin i s (fun l hl => ⟨_, by rw [u.entry]; simp, (merge_known nil v i (v.sent j t e hm).1 hn).2.1 l hl⟩)
    | write i s e hn hr ht inv hm hp he hq hq' =>
      refine fin i s (fun l hl => ⟨e, he, .inl ?_⟩)
      rw [hl] at ht
      simp only at ht
      have := (v.range l (v.real i l hl)).2
      rw [writes_append, List.length_append] at hb
      simp only [writes, List.filterMap_cons, and_self, if_true, List.filterMap_nil, List.length_singleton] at hb this
      rw [Nat.mod_eq_of_lt (by omega)] at ht
      omega
  · intro i j l l' h1 h2 h3 h4
    exact v.coherent l l' (v.real i l h1) (v.real j l' h2) h3 h4

/-- C24, agreement.  Two robots that each heard every write to the key, or something newer, hold the same entry: the greatest
of the writes. -/
theorem C24_agree (nil : D) {σ₀ σ : Robots B K D} {tr : List (NetEv K D)} {id : Nat} {k : K} (hf : Fresh id k σ₀)
    (r : NetRun nil σ₀ tr σ) (hu : Undeleted id k tr) (hb : (writes id k tr).length ≤ 65535) (i j : Nat)
    (hi : ∀ e ∈ writes id k tr, ∃ x ∈ heard i id k tr, Older nil e x) (hj : ∀ e ∈ writes id k tr, ∃ x ∈ heard j id k tr, Older nil e x) :
    Vstig.entry (σ i) id k = Vstig.entry (σ j) id k ∧
    ∀ e ∈ writes id k tr, ∃ l ∈ writes id k tr, Vstig.entry (σ i) id k = some l ∧ Older nil e l := by
  have v := netInv_run nil hf r hu hb
  have top : ∀ i, (∀ e ∈ writes id k tr, ∃ x ∈ heard i id k tr, Older nil e x) → ∀ e ∈ writes id k tr, Has nil (σ i) id k e := by
    intro i hi e he
    obtain ⟨x, hx, ho⟩ := hi e he
    rcases v.known i x hx with h | h
    · obtain ⟨l, hl, ho'⟩ := v.heard i x hx h
      exact ⟨l, hl, older_trans nil ho ho'⟩
    · have := (v.range e he).1
      unfold Older at ho
      omega
  have hti := top i hi
  have htj := top j hj
  constructor
  · cases hl : Vstig.entry (σ i) id k with
    | none =>
      cases hl' : Vstig.entry (σ j) id k with
      | none => rfl
      | some b =>
        obtain ⟨l, h, _⟩ := hti b (v.real j b hl')
        rw [hl] at h; cases h
    | some a =>
      obtain ⟨b, hb, hab⟩ := htj a (v.real i a hl)
      obtain ⟨a', ha', hba⟩ := hti b (v.real j b hb)
      rw [hl] at ha'; cases ha'
      rw [hb, older_antisymm nil v.coherent (v.real i a hl) (v.real j b hb) hab hba]
  · intro e he
    obtain ⟨l, hl, ho⟩ := hti e he
    exact ⟨l, v.real i l hl, hl, ho⟩

/-- C24, convergence.  When no message about the key is waiting at any robot, and two robots received every message about the
key sent by others, they hold the same entry, and it is the greatest of all writes. -/
theorem C24_converge (nil : D) {σ₀ σ : Robots B K D} {tr : List (NetEv K D)} {id : Nat} {k : K} (hf : Fresh id k σ₀)
    (r : NetRun nil σ₀ tr σ) (hu : Undeleted id k tr) (hb : (writes id k tr).length ≤ 65535)
    (hq : ∀ i, queued (σ i).out id k = none) (i j : Nat)
    (hi : ∀ a t e, NetEv.sent a t id k e ∈ tr → a ≠ i → ∃ t', NetEv.got i t' id k e ∈ tr)
    (hj : ∀ a t e, NetEv.sent a t id k e ∈ tr → a ≠ j → ∃ t', NetEv.got j t' id k e ∈ tr) :
    Vstig.entry (σ i) id k = Vstig.entry (σ j) id k ∧
    ∀ e ∈ writes id k tr, ∃ l ∈ writes id k tr, Vstig.entry (σ i) id k = some l ∧ Older nil e l := by
  have v := netInv_run nil hf r hu hb
  have top : ∀ i, (∀ a t e, NetEv.sent a t id k e ∈ tr → a ≠ i → ∃ t', NetEv.got i t' id k e ∈ tr) → ∀ e ∈ writes id k tr, Has nil (σ i) id k e := by
    intro i hi e he
    obtain ⟨x, hx, ho, ⟨a, t, h⟩ | ⟨a, t, h⟩⟩ := v.spread e he
    · simp [waitingMsg, hq] at h
    · have : Has nil (σ i) id k x := by
        by_cases ha : a = i
        · subst ha
          exact (v.sent a t x h).2 hx
        · obtain ⟨t', hg⟩ := hi a t x h ha
          apply v.heard i x _ hx
          simp only [heard, List.mem_filterMap]
          exact ⟨_, hg, by simp⟩
      obtain ⟨l, hl, ho'⟩ := this
      exact ⟨l, hl, older_trans nil ho ho'⟩
  have hti := top i hi
  have htj := top j hj
  constructor
  · cases hl : Vstig.entry (σ i) id k with
    | none =>
      cases hl' : Vstig.entry (σ j) id k with
      | none => rfl
      | some b =>
        obtain ⟨l, h, _⟩ := hti b (v.real j b hl')
        rw [hl] at h; cases h
    | some a =>
      obtain ⟨b, hb, hab⟩ := htj a (v.real i a hl)
      obtain ⟨a', ha', hba⟩ := hti b (v.real j b hb)
      rw [hl] at ha'; cases ha'
      rw [hb, older_antisymm nil v.coherent (v.real i a hl) (v.real j b hb) hab hba]
  · intro e he
    obtain ⟨l, hl, ho⟩ := hti e he
    exact ⟨l, v.real i l hl, hl, ho⟩

/-- Two robots write concurrently, exchange their messages and settle on the write of robot 1. -/
example : ∃ (σ : Robots Nat Nat Nat) (tr : List (NetEv Nat Nat)),
    NetRun 0 (fun i => ⟨i, [(7, Vs.new)], new, []⟩) tr σ ∧ writes 7 5 tr = [⟨70, 1, 0⟩, ⟨80, 1, 1⟩] ∧
    Vstig.entry (σ 0) 7 5 = some ⟨80, 1, 1⟩ ∧ Vstig.entry (σ 1) 7 5 = some ⟨80, 1, 1⟩ := by
  refine ⟨_, _, .step (.step (.step (.step (.step (.step .start (.put 0 7 5 70 ⟨70, 1, 0⟩ _ (by decide) rfl rfl))
    (.put 1 7 5 80 ⟨80, 1, 1⟩ _ (by decide) rfl rfl)) (.send 0 .put 7 5 ⟨70, 1, 0⟩ _ rfl rfl)) (.send 1 .put 7 5 ⟨80, 1, 1⟩ _ rfl rfl))
    (.recv 0 1 .put 7 5 ⟨80, 1, 1⟩ _ (by simp) rfl)) (.recv 1 0 .put 7 5 ⟨70, 1, 0⟩ _ (by simp) rfl), rfl, rfl, rfl⟩

/-- The hypothesis on the start holds for robots that just created the stigmergy. -/
example : Fresh 7 5 (fun i => (⟨i, [(7, Vs.new)], new, []⟩ : St Nat Nat Nat)) := fun _ => ⟨rfl, ⟨_, rfl, rfl⟩, rfl, rfl⟩

end Replicas

end Buzz.Props
