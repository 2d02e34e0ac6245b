import Verif.StigView
import Verif.Props.Replicas

/-
A swarm of machines, seen at one key of one stigmergy, is a network of robots as in C24.
-/
namespace Buzz.VM

open Buzz.OutMsg Buzz.Vstig Buzz.Heap Buzz.Props

variable {E : Env} {me base : Nat} {kd : Kind} {s s' : Vstig.St Unit Obj Obj} {id : Nat} {kE : Obj}

theorem queue_only (v : OutMsg.Inv s.out) {t : VType} {i : Nat} {k : Obj} {e : Elem Obj} (h : Vstig.queue s t i k e = .ok s') :
    s'.out.bc = s.out.bc ∧ s'.out.list = s.out.list := by
  unfold Vstig.queue at h
  obtain ⟨q, h1, h2⟩ := Res.bind_eq_ok.mp h
  cases h2
  rcases appendVstig_spec v t i k e with ⟨_, _, _, h3⟩ | ⟨_, q', h3, _, h4, h5, _⟩
  · cases Res.ok.inj (h3.symm.trans h1); exact ⟨rfl, rfl⟩
  · cases Res.ok.inj (h3.symm.trans h1); exact ⟨h4, h5⟩

theorem put_only (v : OutMsg.Inv s.out) {i : Nat} {k d : Obj} (h : Vstig.put .nil s i k d = .ok s') : s'.out.bc = s.out.bc ∧ s'.out.list = s.out.list := by
  unfold Vstig.put at h
  split at h
  · cases h; exact ⟨rfl, rfl⟩
  · split at h
    · split at h
      · exact queue_only (s := Vstig.store s _ _ _ _) v h
      · obtain ⟨s1, h1, h2⟩ := Res.bind_eq_ok.mp h
        cases h2
        exact queue_only (s' := s1) v h1
    · split at h
      · exact queue_only (s := Vstig.store s _ _ _ _) v h
      · cases h; exact ⟨rfl, rfl⟩

theorem get_only (v : OutMsg.Inv s.out) {i : Nat} {k d : Obj} (h : Vstig.get .nil s i k = .ok (d, s')) : s'.out.bc = s.out.bc ∧ s'.out.list = s.out.list := by
  unfold Vstig.get at h
  split at h
  · cases h; exact ⟨rfl, rfl⟩
  · split at h
    · obtain ⟨s1, h1, h2⟩ := Res.bind_eq_ok.mp h
      cases h2
      exact queue_only v h1
    · obtain ⟨s1, h1, h2⟩ := Res.bind_eq_ok.mp h
      cases h2
      exact queue_only v h1

theorem conflict_only (v : OutMsg.Inv s.out) {i : Nat} {vs : Vs Obj Obj} {k : Obj} {l e : Elem Obj} (h : Vstig.conflict .nil s i vs k l e = .ok s') :
    s'.out.bc = s.out.bc ∧ s'.out.list = s.out.list := by
  unfold Vstig.conflict at h
  split at h
  · cases h; exact ⟨rfl, rfl⟩
  · simp only at h
    split at h
    · exact queue_only (s := { Vstig.store s _ _ _ _ with lost := _ }) v h
    · exact queue_only (s := Vstig.store s _ _ _ _) v h

theorem recv_only (v : OutMsg.Inv s.out) {t : VType} {i : Nat} {k : Obj} {e : Elem Obj} (h : Vstig.recv .nil s t i k e = .ok s') :
    s'.out.bc = s.out.bc ∧ s'.out.list = s.out.list := by
  cases t with
  | put =>
    have h : Vstig.recvPut .nil s i k e = .ok s' := h
    unfold Vstig.recvPut at h
    split at h
    · cases h; exact ⟨rfl, rfl⟩
    · split at h
      · exact queue_only (s := Vstig.store s _ _ _ _) v h
      · split at h
        · exact queue_only (s := Vstig.store s _ _ _ _) v h
        · split at h
          · exact conflict_only v h
          · cases h; exact ⟨rfl, rfl⟩
  | query =>
    have h : Vstig.recvQuery .nil s i k e = .ok s' := h
    unfold Vstig.recvQuery at h
    split at h
    · exact queue_only v h
    · split at h
      · split at h
        · exact queue_only v h
        · exact queue_only (s := Vstig.store s _ _ _ _) v h
      · split at h
        · exact queue_only (s := Vstig.store s _ _ _ _) v h
        · split at h
          · exact queue_only v h
          · split at h
            · exact conflict_only v h
            · cases h; exact ⟨rfl, rfl⟩

/-- A robot of C24 that has the stigmergy and deals with this key only. -/
structure One (id : Nat) (kE : Obj) (me : Nat) (s : Vstig.St Unit Obj Obj) (x : View) : Prop where
  plains : Plains me s
  view : viewOf s id kE = x
  known : x.known = true
  only : ∀ id' k', ¬ (id' = id ∧ k' = kE) → waitingMsg s id' k' = none
  first : s.out.bc = [] ∧ s.out.list = []

theorem One.vs {x : View} (o : One id kE me s x) : ∃ vs, FMap.get s.vstigs id = some vs := by
  have := o.known
  rw [← o.view] at this
  exact Option.isSome_iff_exists.mp this

/-- After an act about the key. -/
theorem One.after {x : View} (o : One id kE me s x) {a : StigAct} (ha : a.about = some (id, kE)) (d : Did a s s') (hp : Plains me s')
    (hf : s'.out.bc = s.out.bc ∧ s'.out.list = s.out.list) : One id kE me s' (x.after me id kE a) := by
  have hc : ∀ i, a ≠ .create i := by rintro i rfl; cases ha
  refine ⟨hp, by rw [did_view o.plains d, o.view], by rw [after_known x (hc _)]; exact o.known, ?_, by rw [hf.1, hf.2]; exact o.first⟩
  intro id' k' hne
  have := congrArg View.waiting (did_view o.plains d id' k')
  rw [after_other _ ?_ (hc _)] at this
  · exact this.trans (o.only id' k' hne)
  · intro k hk e
    rw [ha] at hk
    cases hk
    exact hne ⟨rfl, e.symm⟩

theorem plains_upd {o : Option (Elem Obj)} {k : Obj} {f : VType × Elem Obj → Prop} (p : Plains me s) (u : Upd s s' id k o f) : Plains me s' := by
  refine ⟨u.inv, u.me.trans p.me, fun i vs h => ?_⟩
  have : (FMap.get s.vstigs i).isSome := by rw [← u.has, h]; rfl
  obtain ⟨vs0, h0⟩ := Option.isSome_iff_exists.mp this
  obtain ⟨vs1, h1, h2⟩ := u.plain i ⟨vs0, h0, p.plain i vs0 h0⟩
  rw [h] at h1
  cases h1
  exact h2

theorem One.put {x : View} (o : One id kE me s x) {v : Obj} (hv : v ≠ .nil) :
    ∃ s', Vstig.put .nil s id kE v = .ok s' ∧ One id kE me s' (x.after me id kE (.put id kE v)) := by
  obtain ⟨vs, hvs⟩ := o.vs
  obtain ⟨s', e, h1, _, u, _⟩ := put_upd .nil o.plains.inv hvs kE v hv
  exact ⟨s', h1, o.after rfl h1 (plains_upd o.plains u) (put_only o.plains.inv h1)⟩

theorem One.get {x : View} (o : One id kE me s x) (v : Obj) :
    ∃ d s', Vstig.get .nil s id kE = .ok (d, s') ∧ One id kE me s' (x.after me id kE (.get id kE v)) := by
  obtain ⟨vs, hvs⟩ := o.vs
  obtain ⟨s', h1, u, _⟩ := get_upd .nil o.plains.inv hvs kE
  generalize ((Vstig.entry s id kE).map (·.data)).getD .nil = d at h1
  exact ⟨d, s', h1, o.after (a := .get id kE d) rfl h1 (plains_upd o.plains u) (get_only o.plains.inv h1)⟩

theorem One.recv {x : View} (o : One id kE me s x) (t : VType) (d : Obj) (ts r : Nat) :
    ∃ s', Vstig.recv .nil s t id kE ⟨d, ts, r⟩ = .ok s' ∧ One id kE me s' (x.after me id kE (.recv t id kE d ts r)) := by
  obtain ⟨vs, hvs⟩ := o.vs
  have hp : Vstig.Plain s id := ⟨vs, hvs, o.plains.plain _ _ hvs⟩
  have : ∃ s', Vstig.recv .nil s t id kE ⟨d, ts, r⟩ = .ok s' ∧ Plains me s' := by
    cases t with
    | put =>
      obtain ⟨s', h1, u⟩ := recvPut_upd .nil o.plains.inv hp kE (⟨d, ts, r⟩ : Elem Obj)
      exact ⟨s', h1, plains_upd o.plains u⟩
    | query =>
      obtain ⟨s', h1, ⟨_, _, u⟩ | ⟨_, u⟩⟩ := recvQuery_upd .nil o.plains.inv hp kE (⟨d, ts, r⟩ : Elem Obj)
      · exact ⟨s', h1, plains_upd o.plains u⟩
      · exact ⟨s', h1, plains_upd o.plains u⟩
  obtain ⟨s', h1, h2⟩ := this
  exact ⟨s', h1, o.after (a := .recv t id kE d ts r) rfl h1 h2 (recv_only o.plains.inv h1)⟩

theorem One.sent {x : View} (o : One id kE me s x) {t : VType} {e : Elem Obj} (hw : x.waiting = some (t, e)) :
    ∃ q, OutMsg.first s.out = some (.vstig t id kE e) ∧ OutMsg.next s.out = .ok q ∧ One id kE me { s with out := q } (x.after me id kE (.sent t id kE e)) := by
  have v := o.plains.inv
  rw [← o.view] at hw
  obtain ⟨m, hm, hte⟩ := Option.map_eq_some_iff.mp (show (queued s.out id kE).map (fun m => (m.type, m.elem)) = some (t, e) from hw)
  obtain ⟨hmem, hid, hkey⟩ := (queued_iff v _ _ _).mp hm
  simp only [Prod.mk.injEq] at hte
  have all : ∀ m' ∈ vmsgs s.out, m' = m := by
    intro m' h'
    have hq : queued s.out m'.id m'.key = some m' := (queued_iff v _ _ _).mpr ⟨h', rfl, rfl⟩
    by_cases hc : m'.id = id ∧ m'.key = kE
    · exact inj_key v h' hmem (hc.1.trans hid.symm) (hc.2.trans hkey.symm)
    · have := o.only _ _ hc
      rw [waitingMsg, hq] at this
      cases this
  have hf : OutMsg.first s.out = some (.vstig t id kE e) := by
    unfold OutMsg.first
    rw [o.first.1, o.first.2]
    simp only
    cases hp : s.out.put with
    | cons p l =>
      have := all p (List.mem_append_left _ (by rw [hp]; exact List.mem_cons_self))
      subst this
      have hty := v.tput p (by rw [hp]; exact List.mem_cons_self)
      simp only
      rw [← hte.1, ← hte.2, hid, hkey, hty]
    | nil =>
      cases hq : s.out.query with
      | cons p l =>
        have := all p (List.mem_append_right _ (by rw [hq]; exact List.mem_cons_self))
        subst this
        have hty := v.tquery p (by rw [hq]; exact List.mem_cons_self)
        simp only
        rw [← hte.1, ← hte.2, hid, hkey, hty]
      | nil => rw [vmsgs, hp, hq] at hmem; cases hmem
  obtain ⟨q, h1, h2, _⟩ := next_spec v
  refine ⟨q, hf, h1, o.after (a := .sent t id kE e) rfl ⟨hf, q, h1, rfl⟩ ⟨h2, o.plains.me, o.plains.plain⟩ ?_⟩
  have h3 := h1
  unfold OutMsg.next at h3
  rw [o.first.1, o.first.2] at h3
  simp only at h3
  have fr : ∀ {q0 : Q Unit Obj Obj} {y : VMsg Obj Obj} {q1 : Q Unit Obj Obj}, OutMsg.forget q0 y = .ok q1 → q1.bc = q0.bc ∧ q1.list = q0.list := by
    intro q0 y q1 h
    unfold OutMsg.forget at h
    split at h
    · cases h
    · cases h; exact ⟨rfl, rfl⟩
  cases hp : s.out.put with
  | cons p l =>
    rw [hp] at h3
    obtain ⟨q1, h4, h5⟩ := Res.bind_eq_ok.mp h3
    cases h5
    exact ⟨(fr h4).1, (fr h4).2⟩
  | nil =>
    rw [hp] at h3
    cases hq : s.out.query with
    | cons p l =>
      rw [hq] at h3
      obtain ⟨q1, h4, h5⟩ := Res.bind_eq_ok.mp h3
      cases h5
      exact ⟨(fr h4).1, (fr h4).2⟩
    | nil => rw [vmsgs, hp, hq] at hmem; cases hmem

/-! ### The swarm -/

/-- Robot `i` goes to `w`. -/
def setAt (v : Nat → VM) (i : Nat) (w : VM) : Nat → VM := fun j => if j = i then w else v j

/-- What is received was sent by some robot; strings are the same as characters. -/
def Heard (tr : List (Nat × StigAct)) (a : StigAct) : Prop :=
  ∀ t id k d ts r, a = .recv t id k d ts r → ∃ j k' e, (j, StigAct.sent t id k' e) ∈ tr ∧ bare k' = bare k ∧ bareElem e = bareElem ⟨d, ts, r⟩

/-- An execution of the robots in `R` from the machines `v₀`: at each moment one robot does something. -/
inductive Swarm (E : Env) (base : Nat) (kd : Kind) (mgr : Nat → VElem → VElem → VM → Res (VM × Option VElem)) (hook : Nat → VElem → VM → Res VM) (R : Nat → Prop)
    (v₀ : Nat → VM) : List (Nat × StigAct) → (Nat → VM) → Prop where
  | start : Swarm E base kd mgr hook R v₀ [] v₀
  | work {tr v i u} : Swarm E base kd mgr hook R v₀ tr v → R i → Quiet (v i) u → Swarm E base kd mgr hook R v₀ tr (setAt v i u)
  | act {tr v i a w} : Swarm E base kd mgr hook R v₀ tr v → R i → Does E i base kd mgr hook a (v i) w → Heard tr a →
      Swarm E base kd mgr hook R v₀ (tr ++ [(i, a)]) (setAt v i w)

/-- What the events say robot `i` knows of the key, if all robots begin with the stigmergy and nothing in it. -/
def viewOn (id : Nat) (kE : Obj) (i : Nat) (tr : List (Nat × StigAct)) : View :=
  (tr.filter (fun p => p.1 = i)).foldl (fun x p => x.after i id kE p.2.bare) ⟨true, none, none⟩

/-- An entry written in the course of the events: what a robot holds right after it put a value. -/
def Wrote (id : Nat) (kE : Obj) (tr : List (Nat × StigAct)) (e : Elem Obj) : Prop :=
  ∃ tr1 i k v tr2, tr = tr1 ++ (i, StigAct.put id k v) :: tr2 ∧ bare k = kE ∧ v ≠ .nil ∧ (viewOn id kE i (tr1 ++ [(i, StigAct.put id k v)])).entry = some e

/-- Whether the key is written. -/
def isPut (id : Nat) (kE : Obj) : StigAct → Bool
  | .put id' k' _ => decide (id' = id ∧ bare k' = kE)
  | _ => false

/-- Nobody deletes the key or recreates the stigmergy. -/
def KeyKept (id : Nat) (kE : Obj) (tr : List (Nat × StigAct)) : Prop :=
  ∀ i a, (i, a) ∈ tr → a ≠ .create id ∧ ∀ k, a = .put id k .nil → bare k ≠ kE

theorem viewOn_snoc (i j : Nat) (tr : List (Nat × StigAct)) (a : StigAct) :
    viewOn id kE i (tr ++ [(j, a)]) = if j = i then (viewOn id kE i tr).after i id kE a.bare else viewOn id kE i tr := by
  unfold viewOn
  rw [List.filter_append, List.foldl_append]
  by_cases h : j = i
  · simp [h]
  · simp [h]

theorem wrote_snoc (tr : List (Nat × StigAct)) (p : Nat × StigAct) (e : Elem Obj) :
    Wrote id kE (tr ++ [p]) e ↔ Wrote id kE tr e ∨ ∃ i k v, p = (i, StigAct.put id k v) ∧ bare k = kE ∧ v ≠ .nil ∧ (viewOn id kE i (tr ++ [p])).entry = some e := by
  constructor
  · rintro ⟨tr1, i, k, v, tr2, h1, h2, h3, h4⟩
    rcases List.eq_nil_or_concat tr2 with rfl | ⟨tr2', q, rfl⟩
    · obtain ⟨rfl, h⟩ := List.append_inj' h1 rfl
      cases h
      exact .inr ⟨i, k, v, rfl, h2, h3, h4⟩
    · rw [List.concat_eq_append, ← List.cons_append, ← List.append_assoc] at h1
      obtain ⟨rfl, _⟩ := List.append_inj' h1 rfl
      exact .inl ⟨tr1, i, k, v, tr2', rfl, h2, h3, h4⟩
  · rintro (⟨tr1, i, k, v, tr2, rfl, h2, h3, h4⟩ | ⟨i, k, v, rfl, h2, h3, h4⟩)
    · exact ⟨tr1, i, k, v, tr2 ++ [p], by simp, h2, h3, h4⟩
    · exact ⟨tr, i, k, v, [], rfl, h2, h3, h4⟩

/-- The events of the network about the key. -/
structure Agree (id : Nat) (kE : Obj) (tr : List (Nat × StigAct)) (evs : List (NetEv Obj Obj)) : Prop where
  sent : ∀ i t e, NetEv.sent i t id kE e ∈ evs ↔ ∃ k e', (i, StigAct.sent t id k e') ∈ tr ∧ bare k = kE ∧ bareElem e' = e
  got : ∀ i t e, NetEv.got i t id kE e ∈ evs ↔ ∃ k d ts r, (i, StigAct.recv t id k d ts r) ∈ tr ∧ bare k = kE ∧ bareElem ⟨d, ts, r⟩ = e
  wrote : ∀ e, e ∈ writes id kE evs ↔ Wrote id kE tr e
  count : (writes id kE evs).length = (tr.filter (fun p => isPut id kE p.2)).length
  kept : Undeleted id kE evs

theorem mem_snoc {α : Type} {l : List α} {x y : α} : x ∈ l ++ [y] ↔ x ∈ l ∨ x = y := by simp

/-- Nothing about the key happens. -/
theorem Agree.off {tr : List (Nat × StigAct)} {evs : List (NetEv Obj Obj)} (g : Agree id kE tr evs) (i : Nat) {a : StigAct} (ha : a.bare.about ≠ some (id, kE)) :
    Agree id kE (tr ++ [(i, a)]) evs := by
  refine ⟨fun j t e => (g.sent j t e).trans ?_, fun j t e => (g.got j t e).trans ?_, fun e => (g.wrote e).trans ?_, g.count.trans ?_, g.kept⟩
  · constructor
    · rintro ⟨k, e', h1, h2⟩; exact ⟨k, e', mem_snoc.mpr (.inl h1), h2⟩
    · rintro ⟨k, e', h1, h2, h3⟩
      rcases mem_snoc.mp h1 with h1 | h1
      · exact ⟨k, e', h1, h2, h3⟩
      · cases h1; exact absurd (by simp [StigAct.bare, StigAct.about, h2]) ha
  · constructor
    · rintro ⟨k, d, ts, r, h1, h2⟩; exact ⟨k, d, ts, r, mem_snoc.mpr (.inl h1), h2⟩
    · rintro ⟨k, d, ts, r, h1, h2, h3⟩
      rcases mem_snoc.mp h1 with h1 | h1
      · exact ⟨k, d, ts, r, h1, h2, h3⟩
      · cases h1; exact absurd (by simp [StigAct.bare, StigAct.about, h2]) ha
  · rw [wrote_snoc]
    constructor
    · exact .inl
    · rintro (h | ⟨j, k, v, h1, h2, _⟩)
      · exact h
      · cases h1; exact absurd (by simp [StigAct.bare, StigAct.about, h2]) ha
  · rw [List.filter_append, List.length_append]
    have : isPut id kE a = false := by
      cases a with
      | put i' k' v =>
        simp only [isPut, decide_eq_false_iff_not]
        rintro ⟨rfl, h2⟩
        exact ha (by simp [StigAct.bare, StigAct.about, h2])
      | _ => rfl
    simp [this]

/-- An event about the key. -/
theorem Agree.on {tr : List (Nat × StigAct)} {evs : List (NetEv Obj Obj)} (g : Agree id kE tr evs) (i : Nat) {a : StigAct} {ev : NetEv Obj Obj}
    (hs : ∀ j t e, NetEv.sent j t id kE e = ev ↔ ∃ k e', (j, StigAct.sent t id k e') = (i, a) ∧ bare k = kE ∧ bareElem e' = e)
    (hg : ∀ j t e, NetEv.got j t id kE e = ev ↔ ∃ k d ts r, (j, StigAct.recv t id k d ts r) = (i, a) ∧ bare k = kE ∧ bareElem ⟨d, ts, r⟩ = e)
    (hw : ∀ e, e ∈ writes id kE [ev] ↔ ∃ k v, a = .put id k v ∧ bare k = kE ∧ v ≠ .nil ∧ (viewOn id kE i (tr ++ [(i, a)])).entry = some e)
    (hc : (writes id kE [ev]).length = if isPut id kE a then 1 else 0) (hu : (∀ i, ev ≠ .erased i id kE) ∧ ∀ i, ev ≠ .reset i id) :
    Agree id kE (tr ++ [(i, a)]) (evs ++ [ev]) := by
  refine ⟨fun j t e => ?_, fun j t e => ?_, fun e => ?_, ?_, ?_⟩
  · rw [mem_snoc, g.sent, hs]
    constructor
    · rintro (⟨k, e', h1, h2⟩ | ⟨k, e', h1, h2⟩)
      · exact ⟨k, e', mem_snoc.mpr (.inl h1), h2⟩
      · exact ⟨k, e', mem_snoc.mpr (.inr h1), h2⟩
    · rintro ⟨k, e', h1, h2⟩
      rcases mem_snoc.mp h1 with h1 | h1
      · exact .inl ⟨k, e', h1, h2⟩
      · exact .inr ⟨k, e', h1, h2⟩
  · rw [mem_snoc, g.got, hg]
    constructor
    · rintro (⟨k, d, ts, r, h1, h2⟩ | ⟨k, d, ts, r, h1, h2⟩)
      · exact ⟨k, d, ts, r, mem_snoc.mpr (.inl h1), h2⟩
      · exact ⟨k, d, ts, r, mem_snoc.mpr (.inr h1), h2⟩
    · rintro ⟨k, d, ts, r, h1, h2⟩
      rcases mem_snoc.mp h1 with h1 | h1
      · exact .inl ⟨k, d, ts, r, h1, h2⟩
      · exact .inr ⟨k, d, ts, r, h1, h2⟩
  · rw [writes_append, List.mem_append, g.wrote, hw, wrote_snoc]
    constructor
    · rintro (h | ⟨k, v, rfl, h2⟩)
      · exact .inl h
      · exact .inr ⟨i, k, v, rfl, h2⟩
    · rintro (h | ⟨j, k, v, h1, h2⟩)
      · exact .inl h
      · cases h1; exact .inr ⟨k, v, rfl, h2⟩
  · rw [writes_append, List.length_append, g.count, hc, List.filter_append, List.length_append]
    by_cases h : isPut id kE a = true
    · simp [h]
    · simp [h]
  · intro e he
    rcases mem_snoc.mp he with he | rfl
    · exact g.kept e he
    · exact hu

/-- The robots of C24 at the beginning. -/
def robots (id : Nat) : Robots Unit Obj Obj := fun i => ⟨i, [(id, Vs.new)], OutMsg.new, []⟩

/-- What is known of the swarm. -/
structure Netted (kd : Kind) (R : Nat → Prop) (id : Nat) (kE : Obj) (tr : List (Nat × StigAct)) (v : Nat → VM) (evs : List (NetEv Obj Obj)) (σ : Robots Unit Obj Obj) : Prop where
  run : NetRun .nil (robots id) evs σ
  one : ∀ i, One id kE i (σ i) (viewOn id kE i tr)
  real : ∀ i, R i → VInv (v i) ∧ ∃ s, Shows kd i (v i) s ∧ ViewIs s id kE (viewOn id kE i tr)
  agree : Agree id kE tr evs

theorem swarm_net (law : Obj.StrcmpLaw E.sc) (hb : base + 6 < 2147483648) {mgr : Nat → VElem → VElem → VM → Res (VM × Option VElem)} {hook : Nat → VElem → VM → Res VM}
    {R : Nat → Prop} {v₀ v : Nat → VM} {tr : List (Nat × StigAct)} (sw : Swarm E base kd mgr hook R v₀ tr v)
    (h0 : ∀ i, R i → VInv (v₀ i) ∧ ∃ s, Shows kd i (v₀ i) s ∧ ViewIs s id kE ⟨true, none, none⟩) (hk : KeyKept id kE tr) :
    ∃ evs σ, Netted kd R id kE tr v evs σ := by
  induction sw with
  | start =>
    refine ⟨[], robots id, .start, fun i => ⟨⟨OutMsg.new_inv, rfl, ?_⟩, ?_, rfl, fun _ _ _ => rfl, rfl, rfl⟩, h0, ?_⟩
    · intro j vs h
      rw [robots, FMap.get_cons] at h
      split at h
      · cases h; rfl
      · cases h
    · simp [viewOf, robots, Vstig.entry, FMap.get, Vs.new, viewOn]
      rfl
    · refine ⟨by simp, by simp, ?_, rfl, by intro e he; cases he⟩
      intro e
      constructor
      · intro h; cases h
      · rintro ⟨tr1, _, _, _, tr2, h, _⟩
        have := congrArg List.length h
        simp at this
  | @work tr v i u _ hi q ih =>
    obtain ⟨evs, σ, n⟩ := ih hk
    refine ⟨evs, σ, n.run, n.one, fun j hj => ?_, n.agree⟩
    by_cases h : j = i
    · subst h
      rw [setAt, if_pos rfl]
      obtain ⟨_, s, h2, h3⟩ := n.real j hj
      exact ⟨q.inv, s, q.shows h2, h3⟩
    · rw [setAt, if_neg h]
      exact n.real j hj
  | @act tr v i a w _ hi d hh ih =>
    obtain ⟨evs, σ, n⟩ := ih (fun j b hb => hk j b (mem_snoc.mpr (.inl hb)))
    obtain ⟨hc, hn⟩ := hk i a (mem_snoc.mpr (.inr rfl))
    obtain ⟨hv, s, hsh, hview⟩ := n.real i hi
    obtain ⟨s', _, t2, t3, t4, t5, t6⟩ := does_told law hb hv hsh d hview
    have real : ∀ j, R j → VInv (setAt v i w j) ∧ ∃ s, Shows kd j (setAt v i w j) s ∧ ViewIs s id kE (viewOn id kE j (tr ++ [(i, a)])) := by
      intro j hj
      rw [viewOn_snoc]
      by_cases h : j = i
      · subst h
        rw [setAt, if_pos rfl, if_pos rfl]
        exact ⟨t3, s', t2, t4⟩
      · rw [setAt, if_neg h, if_neg (fun e => h e.symm)]
        exact n.real j hj
    have hcb : a.bare ≠ .create id := by
      intro e
      apply hc
      cases a <;> simp [StigAct.bare] at e
      rw [e]
    by_cases hab : a.bare.about = some (id, kE)
    swap
    · refine ⟨evs, σ, n.run, fun j => ?_, real, n.agree.off i hab⟩
      rw [viewOn_snoc]
      by_cases h : i = j
      · subst h
        rw [if_pos rfl, after_other _ (fun k hk' e => hab (by rw [hk', e])) hcb]
        exact n.one i
      · rw [if_neg h]; exact n.one j
    · have o := n.one i
      -- the step of the robot of C24
      have fin : ∀ ev s1, NetStep .nil evs σ ev (at_ σ i s1) → One id kE i s1 ((viewOn id kE i tr).after i id kE a.bare) → Agree id kE (tr ++ [(i, a)]) (evs ++ [ev]) →
          ∃ evs σ, Netted kd R id kE (tr ++ [(i, a)]) (setAt v i w) evs σ := by
        intro ev s1 h1 h2 h3
        refine ⟨evs ++ [ev], at_ σ i s1, .step n.run h1, fun j => ?_, real, h3⟩
        rw [viewOn_snoc]
        by_cases h : i = j
        · subst h; rw [if_pos rfl, at_same]; exact h2
        · rw [if_neg h, at_ne _ _ (fun e => h e.symm)]; exact n.one j
      cases a with
      | create => cases hab
      | size => cases hab
      | put i' k' x =>
        simp only [StigAct.bare, StigAct.about, Option.some.injEq, Prod.mk.injEq] at hab
        obtain ⟨rfl, hke⟩ := hab
        have hx : x ≠ .nil := fun e => hn k' (by rw [e]) hke
        obtain ⟨s1, p1, p2⟩ := o.put (v := bare x) (fun e => hx (bare_nil.mp e))
        have hent : ∃ e, Vstig.entry s1 i' kE = some e := by
          obtain ⟨vs, hvs⟩ := o.vs
          obtain ⟨s2, e, g1, _, u, _⟩ := put_upd .nil o.plains.inv hvs kE (bare x) (fun e => hx (bare_nil.mp e))
          cases Res.ok.inj (g1.symm.trans p1)
          exact ⟨e, by rw [u.entry, if_pos ⟨rfl, rfl⟩]⟩
        obtain ⟨e, he⟩ := hent
        have p2' : One i' kE i s1 ((viewOn i' kE i tr).after i i' kE (StigAct.put i' k' x).bare) := by
          simp only [StigAct.bare]; rw [hke]; exact p2
        refine fin (.wrote i i' kE e) s1 (.put i i' kE (bare x) e s1 (fun e => hx (bare_nil.mp e)) p1 he) p2' (n.agree.on i ?_ ?_ ?_ ?_ ?_)
        · intro j t e
          constructor
          · intro h; cases h
          · rintro ⟨k, e', h, _⟩; cases h
        · intro j t e
          constructor
          · intro h; cases h
          · rintro ⟨k, _, _, _, h, _⟩; cases h
        · intro e'
          have hview' : (viewOn i' kE i (tr ++ [(i, StigAct.put i' k' x)])).entry = some e := by
            rw [viewOn_snoc, if_pos rfl, ← p2'.view]
            exact he
          constructor
          · intro h
            simp only [writes, List.filterMap_cons, List.filterMap_nil, and_self, if_true, List.mem_singleton] at h
            subst h
            exact ⟨k', x, rfl, hke, hx, hview'⟩
          · rintro ⟨k, x', h1, h2, h3, h4⟩
            rw [hview'] at h4
            cases h4
            simp [writes]
        · simp [writes, isPut, hke]
        · exact ⟨(fun j h => by cases h), (fun j h => by cases h)⟩
      | get i' k' x =>
        simp only [StigAct.bare, StigAct.about, Option.some.injEq, Prod.mk.injEq] at hab
        obtain ⟨rfl, hke⟩ := hab
        obtain ⟨dd, s1, p1, p2⟩ := o.get (bare x)
        refine fin .quiet s1 (.get i i' kE dd s1 p1) (by simp only [StigAct.bare]; rw [hke]; exact p2) (n.agree.on i ?_ ?_ ?_ ?_ ?_)
        · intro j t e
          constructor
          · intro h; cases h
          · rintro ⟨k, e', h, _⟩; cases h
        · intro j t e
          constructor
          · intro h; cases h
          · rintro ⟨k, _, _, _, h, _⟩; cases h
        · intro e'
          constructor
          · intro h; cases h
          · rintro ⟨k, x', h1, _⟩; cases h1
        · simp [writes, isPut]
        · exact ⟨(fun j h => by cases h), (fun j h => by cases h)⟩
      | recv t i' k' dd ts r =>
        simp only [StigAct.bare, StigAct.about, Option.some.injEq, Prod.mk.injEq] at hab
        obtain ⟨rfl, hke⟩ := hab
        obtain ⟨j0, k0, e0, m1, m2, m3⟩ := hh t i' k' dd ts r rfl
        have hm : NetEv.sent j0 t i' kE ⟨bare dd, ts, r⟩ ∈ evs := (n.agree.sent j0 t _).mpr ⟨k0, e0, m1, m2.trans hke, m3⟩
        obtain ⟨s1, p1, p2⟩ := o.recv t (bare dd) ts r
        refine fin (.got i t i' kE ⟨bare dd, ts, r⟩) s1 (.recv i j0 t i' kE _ s1 hm p1) (by simp only [StigAct.bare]; rw [hke]; exact p2) (n.agree.on i ?_ ?_ ?_ ?_ ?_)
        · intro j t e
          constructor
          · intro h; cases h
          · rintro ⟨k, e', h, _⟩; cases h
        · intro j t' e
          constructor
          · intro h; cases h; exact ⟨k', dd, ts, r, rfl, hke, rfl⟩
          · rintro ⟨k, d', ts', r', h, h2, h3⟩
            cases h
            rw [← h3]
            rfl
        · intro e'
          constructor
          · intro h; cases h
          · rintro ⟨k, x', h1, _⟩; cases h1
        · simp [writes, isPut]
        · exact ⟨(fun j h => by cases h), (fun j h => by cases h)⟩
      | sent t i' k' e =>
        simp only [StigAct.bare, StigAct.about, Option.some.injEq, Prod.mk.injEq] at hab
        obtain ⟨rfl, hke⟩ := hab
        obtain ⟨q, p0, p1, p2⟩ := o.sent (t6 t k' e rfl hke)
        refine fin (.sent i t i' kE (bareElem e)) _ (.send i t i' kE _ q p0 p1) (by simp only [StigAct.bare]; rw [hke]; exact p2) (n.agree.on i ?_ ?_ ?_ ?_ ?_)
        · intro j t' e'
          constructor
          · intro h; cases h; exact ⟨k', e, rfl, hke, rfl⟩
          · rintro ⟨k, e1, h, h2, h3⟩
            cases h
            rw [← h3]
        · intro j t' e'
          constructor
          · intro h; cases h
          · rintro ⟨k, _, _, _, h, _⟩; cases h
        · intro e'
          constructor
          · intro h; cases h
          · rintro ⟨k, x', h1, _⟩; cases h1
        · simp [writes, isPut]
        · exact ⟨(fun j h => by cases h), (fun j h => by cases h)⟩

end Buzz.VM
