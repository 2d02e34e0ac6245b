import Verif.OutMsg

/-
Properties C19, C20, C21 of the output queue.

A history is any sequence of the queue's operations.  `run` performs it and logs what was done and what was sent.
-/
namespace Buzz.Props

open Buzz.OutMsg

section Outgoing

variable {B K D : Type} [DecidableEq K]

/-- The operations on the output queue. -/
inductive OutOp (B K D : Type) where
  | broadcast (b : B)
  | list (ids : List (Nat × Nat))
  | swarm (t : SType) (id : Nat)
  | vstig (t : VType) (id : Nat) (key : K) (e : Elem D)
  | send

/-- A log entry: an operation performed, or a message sent. -/
inductive Ev (B K D : Type) where
  | did (o : OutOp B K D)
  | sent (m : Msg B K D)

/-- One operation; `send` takes the first message and drops it from the queue, as the controllers do. -/
def outStep (q : Q B K D) : OutOp B K D → Res (Q B K D × List (Ev B K D))
  | .broadcast b => .ok (appendBroadcast q b, [.did (.broadcast b)])
  | .list ids => .ok (appendList q ids, [.did (.list ids)])
  | .swarm t id => do
    let q ← appendSwarm q t id
    pure (q, [.did (.swarm t id)])
  | .vstig t id key e => do
    let q ← appendVstig q t id key e
    pure (q, [.did (.vstig t id key e)])
  | .send => do
    let q' ← next q
    pure (q', (first q).toList.map .sent)

/-- A history from the empty queue. -/
def outRun (q : Q B K D) (log : List (Ev B K D)) : List (OutOp B K D) → Res (Q B K D × List (Ev B K D))
  | [] => .ok (q, log)
  | o :: os => do
    let (q, l) ← outStep q o
    outRun q (log ++ l) os

/-! #### C19 -/

/-- What a message tells about the sender's swarms: a list gives all of them, join and leave one change. -/
def told (view : Nat → Bool) : Msg B K D → Nat → Bool
  | .list ids => fun i => decide (i ∈ ids)
  | .swarm .join id => fun i => if i = id then true else view i
  | .swarm .leave id => fun i => if i = id then false else view i
  | _ => view

/-- The sender's decision: the last join or leave of that id, a list being a decision about every id. -/
def decided (own : Nat → Bool) : OutOp B K D → Nat → Bool
  | .swarm .join id => fun i => if i = id then true else own i
  | .swarm .leave id => fun i => if i = id then false else own i
  | .list ids => fun i => decide (∃ e ∈ ids, e.1 = i ∧ e.2 ≠ 0)
  | _ => own

/-- The messages sent, in order. -/
def sentOf (l : List (Ev B K D)) : List (Msg B K D) := l.filterMap fun | .sent m => some m | _ => none

/-- Operations a program can issue: ids other than 65535, and lists taken from a dictionary, so with distinct ids. -/
def OutOp.Fine : OutOp B K D → Prop
  | .list ids => (ids.map (·.1)).Nodup ∧ ∀ e ∈ ids, e.1 < 65535
  | .swarm _ id => id < 65535
  | _ => True

structure SwInv (q : Q B K D) : Prop where
  one : q.list.length ≤ 1
  alone : q.list ≠ [] → q.join = [] ∧ q.leave = []
  njoin : q.join.Nodup
  nleave : q.leave.Nodup
  disj : ∀ i ∈ q.join, i ∉ q.leave
  nlist : ∀ l ∈ q.list, l.Nodup ∧ ∀ i ∈ l, i < 65535

theorem told_bc (l : List B) (v : Nat → Bool) : (l.map (Msg.broadcast : B → Msg B K D)).foldl told v = v := by
  induction l generalizing v with
  | nil => rfl
  | cons a l ih => simpa [told] using ih v

theorem told_v (t : VType) (l : List (VMsg K D)) (v : Nat → Bool) :
    (l.map (fun m => (Msg.vstig t m.id m.key m.elem : Msg B K D))).foldl told v = v := by
  induction l generalizing v with
  | nil => rfl
  | cons a l ih => simpa [told] using ih v

theorem told_join (l : List Nat) (v : Nat → Bool) (i : Nat) :
    (l.map (Msg.swarm .join : Nat → Msg B K D)).foldl told v i = if i ∈ l then true else v i := by
  induction l generalizing v with
  | nil => simp
  | cons a l ih =>
    simp only [List.map_cons, List.foldl_cons, ih, told, List.mem_cons]
    by_cases h1 : i ∈ l <;> by_cases h2 : i = a <;> simp [h1, h2]

theorem told_leave (l : List Nat) (v : Nat → Bool) (i : Nat) :
    (l.map (Msg.swarm .leave : Nat → Msg B K D)).foldl told v i = if i ∈ l then false else v i := by
  induction l generalizing v with
  | nil => simp
  | cons a l ih =>
    simp only [List.map_cons, List.foldl_cons, ih, told, List.mem_cons]
    by_cases h1 : i ∈ l <;> by_cases h2 : i = a <;> simp [h1, h2]

/-- The view of a receiver who also hears everything still queued. -/
theorem told_contents (q : Q B K D) (h : q.list.length ≤ 1) (v : Nat → Bool) (i : Nat) :
    (contents q).foldl told v i =
      if i ∈ q.leave then false else if i ∈ q.join then true else
        match q.list with
        | [] => v i
        | l :: _ => decide (i ∈ l) := by
  simp only [contents, List.foldl_append, told_bc, told_v, told_leave, told_join]
  rcases hl : q.list with _ | ⟨a, _ | ⟨b, r⟩⟩
  · simp
  · simp [told]
  · rw [hl] at h; simp at h

theorem length_lt_of_bounded {l : List Nat} (h : l.Nodup) (hb : ∀ i ∈ l, i < 65535) : l.length ≤ 65535 := by
  have : l ⊆ List.range 65535 := fun i hi => List.mem_range.mpr (hb i hi)
  have := (List.subperm_of_subset h this).length_le
  rwa [List.length_range] at this

theorem mem_appendTo (l : List Nat) (id i : Nat) : i ∈ appendTo l id ↔ i ∈ l ∨ i = id := by
  unfold appendTo
  split
  · simp
  · split
    · rename_i h
      rw [List.any_eq_true] at h
      obtain ⟨x, hx, hxe⟩ := h
      rw [beq_iff_eq] at hxe
      subst hxe
      constructor
      · exact .inl
      · rintro (h | rfl)
        · exact h
        · exact hx
    · simp

theorem nodup_appendTo (l : List Nat) (id : Nat) (h : l.Nodup) : (appendTo l id).Nodup := by
  unfold appendTo
  split
  · rename_i h1; simp at h1; simp [h1]
  · split
    · exact h
    · rename_i h1
      rw [List.nodup_append]
      refine ⟨h, by simp, ?_⟩
      intro a ha b hb
      simp at hb
      subst hb
      rintro rfl
      exact h1 (List.any_eq_true.mpr ⟨a, ha, by simp⟩)

theorem swInv_new : SwInv (new : Q B K D) := by
  constructor <;> simp [new]

/-- Joining or leaving keeps the invariant and tells exactly the new decision. -/
theorem appendSwarm_spec {q : Q B K D} (w : SwInv q) (t : SType) (id : Nat) (hid : id < 65535) :
    ∃ q', appendSwarm q t id = .ok q' ∧ SwInv q' ∧
      (∀ v i, (contents q').foldl told v i = if i = id then decide (t = .join) else (contents q).foldl told v i) ∧
      (∀ v : Inv q, Inv q') ∧ vmsgs q' = vmsgs q := by
  unfold appendSwarm
  rcases hl : q.list with _ | ⟨l, r⟩
  · cases t with
    | join =>
      have w' : SwInv { q with list := [], join := appendTo q.join id, leave := removeFrom q.leave id } := by
        refine ⟨by simp, by simp, nodup_appendTo _ _ w.njoin, w.nleave.erase _, ?_, by simp⟩
        intro i hi hi'
        simp only [removeFrom, w.nleave.mem_erase_iff] at hi'
        rcases (mem_appendTo _ _ _).mp hi with h | h
        · exact w.disj i h hi'.2
        · exact hi'.1 h
      refine ⟨_, rfl, w', ?_, fun v => ⟨v.tput, v.tquery, v.nodup, v.bound, v.look⟩, rfl⟩
      intro v i
      rw [told_contents _ w'.one, told_contents _ w.one]
      simp only [removeFrom, w.nleave.mem_erase_iff, mem_appendTo, hl]
      by_cases h : i = id <;> simp [h]
    | leave =>
      have w' : SwInv { q with list := [], join := removeFrom q.join id, leave := appendTo q.leave id } := by
        refine ⟨by simp, by simp, w.njoin.erase _, nodup_appendTo _ _ w.nleave, ?_, by simp⟩
        intro i hi hi'
        simp only [removeFrom, w.njoin.mem_erase_iff] at hi
        rcases (mem_appendTo _ _ _).mp hi' with h | h
        · exact w.disj i hi.2 h
        · exact hi.1 h
      refine ⟨_, rfl, w', ?_, fun v => ⟨v.tput, v.tquery, v.nodup, v.bound, v.look⟩, rfl⟩
      intro v i
      rw [told_contents _ w'.one, told_contents _ w.one]
      simp only [removeFrom, w.njoin.mem_erase_iff, mem_appendTo, hl]
      by_cases h : i = id <;> simp [h]
  · obtain ⟨hj, hv⟩ := w.alone (by simp [hl])
    have hr : r = [] := by
      have := w.one; rw [hl] at this; simpa using this
    subst hr
    obtain ⟨hn, hb⟩ := w.nlist l (by simp [hl])
    have hlen := length_lt_of_bounded hn hb
    have main : ∃ l', editList l t id = .ok l' ∧ l'.Nodup ∧ (∀ i ∈ l', i < 65535) ∧
        ∀ i, i ∈ l' ↔ if i = id then t = .join else i ∈ l := by
      unfold editList
      by_cases hm : id ∈ l
      · cases t with
        | join =>
          refine ⟨l, by simp [hm], hn, hb, ?_⟩
          intro i; by_cases h : i = id <;> simp [h, hm]
        | leave =>
          refine ⟨l.erase id, by simp [hm], hn.erase _, fun i hi => hb i (List.mem_of_mem_erase hi), ?_⟩
          intro i; rw [hn.mem_erase_iff]; by_cases h : i = id <;> simp [h]
      · cases t with
        | join =>
          have hlt : l.length + 1 < U16 := by
            have h1 : (l ++ [id]).Nodup := by
              rw [List.nodup_append]
              exact ⟨hn, by simp, by rintro a ha b hb' rfl; simp at hb'; exact hm (hb' ▸ ha)⟩
            have h2 := length_lt_of_bounded h1 (by
              intro i hi; rcases List.mem_append.mp hi with h | h
              · exact hb i h
              · simp at h; rw [h]; exact hid)
            simp only [List.length_append, List.length_singleton] at h2
            unfold U16; omega
          refine ⟨l ++ [id], by simp [hm, hlt], ?_, ?_, ?_⟩
          · rw [List.nodup_append]
            exact ⟨hn, by simp, by rintro a ha b hb' rfl; simp at hb'; exact hm (hb' ▸ ha)⟩
          · intro i hi; rcases List.mem_append.mp hi with h | h
            · exact hb i h
            · simp at h; rw [h]; exact hid
          · intro i; by_cases h : i = id <;> simp [h]
        | leave =>
          refine ⟨l, by simp [hm], hn, hb, ?_⟩
          intro i; by_cases h : i = id <;> simp [h, hm]
    obtain ⟨l', h1, h2, h3, h4⟩ := main
    have w' : SwInv { q with list := [l'] } :=
      ⟨by simp, fun _ => ⟨hj, hv⟩, w.njoin, w.nleave, w.disj, by simpa using ⟨h2, h3⟩⟩
    refine ⟨{ q with list := [l'] }, by simp [h1], w', ?_, fun v => ⟨v.tput, v.tquery, v.nodup, v.bound, v.look⟩, rfl⟩
    intro v i
    rw [told_contents _ w'.one, told_contents _ w.one]
    simp only [hj, hv, hl, List.not_mem_nil, if_false]
    by_cases h : i = id
    · simp only [h, if_true, h4]
    · simp only [h, if_false, h4]

theorem appendList_spec {q : Q B K D} (ids : List (Nat × Nat)) (hn : (ids.map (·.1)).Nodup) (hb : ∀ e ∈ ids, e.1 < 65535) :
    SwInv (appendList q ids) ∧
      ∀ v i, (contents (appendList q ids)).foldl told v i = decide (∃ e ∈ ids, e.1 = i ∧ e.2 ≠ 0) := by
  have hn' : ((ids.filter (fun e => e.2 ≠ 0)).map (·.1)).Nodup := hn.sublist (List.filter_sublist.map _)
  have hb' : ∀ i ∈ (ids.filter (fun e => e.2 ≠ 0)).map (·.1), i < 65535 := by
    intro i hi
    obtain ⟨e, he, rfl⟩ := List.mem_map.mp hi
    exact hb e (List.mem_of_mem_filter he)
  have hlen := length_lt_of_bounded hn' hb'
  have ht : (appendList q ids).list = [(ids.filter (fun e => e.2 ≠ 0)).map (·.1)] := by
    simp only [appendList]
    rw [Nat.mod_eq_of_lt (by unfold U16; omega), List.take_length]
  have w : SwInv (appendList q ids) := by
    refine ⟨by rw [ht]; simp, fun _ => ⟨rfl, rfl⟩, by simp [appendList], by simp [appendList], by simp [appendList], ?_⟩
    rw [ht]
    intro l hl
    simp only [List.mem_singleton] at hl
    subst hl
    exact ⟨hn', hb'⟩
  refine ⟨w, ?_⟩
  intro v i
  rw [told_contents _ w.one, ht]
  simp [appendList]

theorem swInv_next {q q' : Q B K D} (w : SwInv q) (h : next q = .ok q') : SwInv q' := by
  have same : ∀ q' : Q B K D, q'.list = q.list → q'.join = q.join → q'.leave = q.leave → SwInv q' := by
    intro q' h1 h2 h3
    exact ⟨by rw [h1]; exact w.one, by rw [h1, h2, h3]; exact w.alone, by rw [h2]; exact w.njoin,
      by rw [h3]; exact w.nleave, by rw [h2, h3]; exact w.disj, by rw [h1]; exact w.nlist⟩
  have fg : ∀ m q1, forget q m = .ok q1 → q1.list = q.list ∧ q1.join = q.join ∧ q1.leave = q.leave := by
    intro m q1 h
    unfold forget at h
    split at h
    · exact absurd h (by simp)
    · cases h; exact ⟨rfl, rfl, rfl⟩
  unfold next at h
  split at h
  · cases h; exact same _ rfl rfl rfl
  split at h
  · rename_i l r hl
    cases h
    have hr : r = [] := by
      have := w.one; rw [hl] at this; simpa using this
    subst hr
    exact ⟨by simp, by simp, w.njoin, w.nleave, w.disj, by simp⟩
  split at h
  · rw [Res.bind_eq_ok] at h
    obtain ⟨q1, h1, h2⟩ := h
    cases h2
    obtain ⟨a, b, c⟩ := fg _ _ h1
    exact same _ a b c
  split at h
  · rw [Res.bind_eq_ok] at h
    obtain ⟨q1, h1, h2⟩ := h
    cases h2
    obtain ⟨a, b, c⟩ := fg _ _ h1
    exact same _ a b c
  rename_i hl _ _ _ _
  split at h
  · rename_i b r hj
    cases h
    refine ⟨w.one, fun hne => absurd hl hne, ?_, w.nleave, ?_, w.nlist⟩
    · have := w.njoin; rw [hj, List.nodup_cons] at this; exact this.2
    · intro i hi; exact w.disj i (by rw [hj]; exact List.mem_cons_of_mem _ hi)
  split at h
  · rename_i b r hj
    cases h
    refine ⟨w.one, fun hne => absurd hl hne, w.njoin, ?_, ?_, w.nlist⟩
    · have := w.nleave; rw [hj, List.nodup_cons] at this; exact this.2
    · intro i hi hi'; exact w.disj i hi (by rw [hj]; exact List.mem_cons_of_mem _ hi')
  · cases h; exact w


/-- One step keeps all invariants and the receivers' final view in step with the decisions. -/
theorem outStep_spec {q : Q B K D} (v : Inv q) (w : SwInv q) (o : OutOp B K D) (hf : o.Fine) :
    ∃ q' l, outStep q o = .ok (q', l) ∧ Inv q' ∧ SwInv q' ∧
      ∀ r own, (∀ i, (contents q).foldl told r i = own i) →
        ∀ i, (sentOf l ++ contents q').foldl told r i = decided own o i := by
  cases o with
  | broadcast b =>
    refine ⟨_, _, rfl, ⟨v.tput, v.tquery, v.nodup, v.bound, v.look⟩,
      ⟨w.one, w.alone, w.njoin, w.nleave, w.disj, w.nlist⟩, ?_⟩
    intro r own h i
    have h0 := h i
    rw [told_contents _ w.one] at h0
    simp only [sentOf, List.filterMap_cons, List.filterMap_nil, List.nil_append, decided]
    rw [told_contents (appendBroadcast q b) w.one]
    exact h0
  | list ids =>
    obtain ⟨h1, h2⟩ := appendList_spec (q := q) ids hf.1 hf.2
    refine ⟨_, _, rfl, ⟨v.tput, v.tquery, v.nodup, v.bound, v.look⟩, h1, ?_⟩
    intro r own _ i
    simp only [sentOf, List.filterMap_cons, List.filterMap_nil, List.nil_append, decided]
    exact h2 r i
  | swarm t id =>
    obtain ⟨q', h1, h2, h3, h4, _⟩ := appendSwarm_spec w t id hf
    refine ⟨q', [.did (.swarm t id)], by simp [outStep, h1], h4 v, h2, ?_⟩
    intro r own h i
    simp only [sentOf, List.filterMap_cons, List.filterMap_nil, List.nil_append]
    rw [h3 r i, h i]
    cases t <;> simp [decided]
  | vstig t id key e =>
    rcases appendVstig_spec v t id key e with ⟨m, _, _, h1⟩ | ⟨_, q', h1, h2, hbc, hl, hj, hv, _⟩
    · refine ⟨q, [.did (.vstig t id key e)], by simp [outStep, h1], v, w, ?_⟩
      intro r own h i
      simpa [sentOf, decided] using h i
    · refine ⟨q', [.did (.vstig t id key e)], by simp [outStep, h1], h2, ?_, ?_⟩
      · exact ⟨by rw [hl]; exact w.one, by rw [hl, hj, hv]; exact w.alone, by rw [hj]; exact w.njoin,
          by rw [hv]; exact w.nleave, by rw [hj, hv]; exact w.disj, by rw [hl]; exact w.nlist⟩
      · intro r own h i
        have h0 := h i
        rw [told_contents _ w.one] at h0
        simp only [sentOf, List.filterMap_cons, List.filterMap_nil, List.nil_append, decided]
        rw [told_contents q' (by rw [hl]; exact w.one), hl, hj, hv]
        exact h0
  | send =>
    obtain ⟨q', h1, h2, h3, _⟩ := next_spec v
    refine ⟨q', (first q).toList.map .sent, by simp [outStep, h1], h2, swInv_next w h1, ?_⟩
    intro r own h i
    rw [first_eq, h3]
    have : sentOf (((contents q).head?.toList).map Ev.sent) ++ (contents q).tail = contents q := by
      cases contents q <;> simp [sentOf]
    rw [this]
    simpa [decided] using h i

/-- Events added by the rest of a run go after the log so far. -/
theorem outRun_spec {P : Q B K D → List (Ev B K D) → List (OutOp B K D) → Prop}
    (step : ∀ (q : Q B K D) log done o q' l, Inv q → SwInv q → OutOp.Fine o → P q log done → outStep q o = .ok (q', l) → P q' (log ++ l) (done ++ [o]))
    (ops : List (OutOp B K D)) (hf : ∀ o ∈ ops, o.Fine) (q : Q B K D) (log : List (Ev B K D)) (done : List (OutOp B K D))
    (v : Inv q) (w : SwInv q) (h : P q log done) :
    ∃ q' log', outRun q log ops = .ok (q', log') ∧ Inv q' ∧ SwInv q' ∧ P q' log' (done ++ ops) := by
  induction ops generalizing q log done with
  | nil => exact ⟨q, log, rfl, v, w, by simpa using h⟩
  | cons o os ih =>
    obtain ⟨q1, l, h1, v1, w1, _⟩ := outStep_spec v w o (hf o (by simp))
    obtain ⟨q', log', h2, h3, h4, h5⟩ := ih (fun o ho => hf o (List.mem_cons_of_mem _ ho)) q1 (log ++ l) (done ++ [o]) v1 w1
      (step q log done o q1 l v w (hf o (by simp)) h h1)
    exact ⟨q', log', by simp [outRun, h1, h2], h3, h4, by simpa using h5⟩

/-- C19.  Whatever the history: no failure; at most one list message, and then no join or leave message; no id twice or on
both sides; and a receiver that hears everything sent and everything still queued knows exactly the sender's latest
decision on every id. -/
theorem C19_swarm_queue (ops : List (OutOp B K D)) (hf : ∀ o ∈ ops, o.Fine) :
    ∃ q log, outRun new [] ops = .ok (q, log) ∧ q.list.length ≤ 1 ∧ (q.list ≠ [] → q.join = [] ∧ q.leave = []) ∧
      q.join.Nodup ∧ q.leave.Nodup ∧ (∀ i ∈ q.join, i ∉ q.leave) ∧
      ∀ i, (sentOf log ++ contents q).foldl told (fun _ => false) i = ops.foldl decided (fun _ => false) i := by
  obtain ⟨q, log, h1, _, w, h⟩ := outRun_spec
    (P := fun q log done => ∀ i, (sentOf log ++ contents q).foldl told (fun _ => false) i =
      done.foldl decided (fun _ => false) i) (by
    intro q log done o q' l v w hf hP hs
    obtain ⟨q1, l1, h1, _, _, h2⟩ := outStep_spec v w o hf
    rw [hs] at h1
    cases h1
    intro i
    have := h2 ((sentOf log).foldl told (fun _ => false)) (done.foldl decided (fun _ => false)) (by
      intro i; rw [← hP i, List.foldl_append]) i
    simp only [List.foldl_append, List.foldl_cons, List.foldl_nil, sentOf, List.filterMap_append] at this ⊢
    exact this) ops hf new [] [] new_inv swInv_new (by simp [sentOf, new, contents])
  exact ⟨q, log, h1, w.one, w.alone, w.njoin, w.nleave, w.disj, by simpa using h⟩

/-- A history where the latest decisions are spread over sent and queued messages. -/
example : (outRun (new : Q Nat Nat Nat) [] [.swarm .join 1, .swarm .join 2, .swarm .leave 1, .send, .swarm .join 5, .swarm .leave 2,
    .list [(1, 0), (2, 0), (5, 1)], .swarm .join 9, .vstig .put 3 4 ⟨7, 1, 0⟩]).isOk = true := by decide

example : ((outRun (new : Q Nat Nat Nat) [] [.swarm .join 1, .swarm .join 2, .swarm .leave 1, .send, .swarm .join 5, .swarm .leave 2,
    .list [(1, 0), (2, 0), (5, 1)], .swarm .join 9, .vstig .put 3 4 ⟨7, 1, 0⟩])) matches
    .ok (⟨[], [[5, 9]], [], [], [⟨0, .put, 3, 4, _⟩], [], _, _⟩, [_, _, _, .sent (.swarm .join 2), _, _, _, _, _]) := by rfl

/-! #### C20 -/

/-- The messages appended for a stigmergy and key since the last one for it was sent. -/
def since (id : Nat) (key : K) (log : List (Ev B K D)) : List (VType × Elem D) :=
  log.foldl (fun acc ev => match ev with
    | .did (.vstig t id' key' e) => if id' = id ∧ key' = key then acc ++ [(t, e)] else acc
    | .sent (.vstig _ id' key' _) => if id' = id ∧ key' = key then [] else acc
    | _ => acc) []

/-- Is this a queued message for the stigmergy and key? -/
def isFor (id : Nat) (key : K) : Msg B K D → Bool
  | .vstig _ id' key' _ => decide (id' = id ∧ key' = key)
  | _ => false

theorem since_append (id : Nat) (key : K) (log : List (Ev B K D)) (ev : Ev B K D) :
    since id key (log ++ [ev]) = match ev with
    | .did (.vstig t id' key' e) => if id' = id ∧ key' = key then since id key log ++ [(t, e)] else since id key log
    | .sent (.vstig _ id' key' _) => if id' = id ∧ key' = key then [] else since id key log
    | _ => since id key log := by
  simp [since]

/-- The newest of a list: larger timestamps win, the earlier of equals. -/
def Newest (l : List (VType × Elem D)) (t : VType) (e : Elem D) : Prop :=
  ∃ pre post, l = pre ++ (t, e) :: post ∧ (∀ x ∈ pre, x.2.ts < e.ts) ∧ ∀ x ∈ post, x.2.ts ≤ e.ts

/-- Agreement of queue and log for every key. -/
def Agree (q : Q B K D) (log : List (Ev B K D)) : Prop :=
  ∀ id key, (since id key log = [] ∧ queued q id key = none) ∨
    ∃ m, queued q id key = some m ∧ Newest (since id key log) m.type m.elem

theorem filter_unique {α : Type} {l : List α} {p : α → Bool} {a : α} (hn : l.Nodup) (ha : a ∈ l) (hp : p a = true)
    (hu : ∀ b ∈ l, p b = true → b = a) : l.filter p = [a] := by
  induction l with
  | nil => simp at ha
  | cons b l ih =>
    rw [List.nodup_cons] at hn
    by_cases hb : b = a
    · subst hb
      rw [List.filter_cons_of_pos hp, List.filter_eq_nil_iff.mpr]
      intro c hc hpc
      exact hn.1 (hu c (List.mem_cons_of_mem _ hc) hpc ▸ hc)
    · have hpb : ¬ p b = true := fun h => hb (hu b (by simp) h)
      rw [List.filter_cons_of_neg hpb]
      exact ih hn.2 (by simpa [Ne.symm hb] using ha) (fun c hc => hu c (List.mem_cons_of_mem _ hc))

theorem filter_contents {q : Q B K D} (v : Inv q) (id : Nat) (key : K) :
    (contents q).filter (isFor id key) =
      ((vmsgs q).filter (fun m => m.id = id ∧ m.key = key)).map (fun m => .vstig m.type m.id m.key m.elem) := by
  have e1 : (q.bc.map (Msg.broadcast : B → Msg B K D)).filter (isFor id key) = [] := by
    rw [List.filter_eq_nil_iff]; intro a ha; obtain ⟨b, _, rfl⟩ := List.mem_map.mp ha; simp [isFor]
  have e2 : (q.list.map (Msg.list : List Nat → Msg B K D)).filter (isFor id key) = [] := by
    rw [List.filter_eq_nil_iff]; intro a ha; obtain ⟨b, _, rfl⟩ := List.mem_map.mp ha; simp [isFor]
  have e3 : ∀ t (l : List Nat), (l.map (Msg.swarm t : Nat → Msg B K D)).filter (isFor id key) = [] := by
    intro t l
    rw [List.filter_eq_nil_iff]; intro a ha; obtain ⟨b, _, rfl⟩ := List.mem_map.mp ha; simp [isFor]
  have e4 : ∀ t (l : List (VMsg K D)), (∀ m ∈ l, m.type = t) →
      (l.map (fun m => (Msg.vstig t m.id m.key m.elem : Msg B K D))).filter (isFor id key) =
      (l.filter (fun m => m.id = id ∧ m.key = key)).map (fun m => .vstig m.type m.id m.key m.elem) := by
    intro t l h
    induction l with
    | nil => rfl
    | cons a l ih =>
      have ih := ih (fun m hm => h m (List.mem_cons_of_mem _ hm))
      have ha := h a (by simp)
      by_cases hc : a.id = id ∧ a.key = key
      · rw [List.map_cons, List.filter_cons_of_pos (by simp [isFor, hc]), List.filter_cons_of_pos (by simp [hc]), ih, List.map_cons, ha]
      · rw [List.map_cons, List.filter_cons_of_neg (by simpa [isFor] using hc), List.filter_cons_of_neg (by simpa using hc), ih]
  simp only [contents, vmsgs, List.filter_append, List.map_append, e1, e2, e3, List.nil_append, List.append_nil]
  rw [e4 .put _ v.tput, e4 .query _ v.tquery]

theorem agree_step {q : Q B K D} (v : Inv q) (w : SwInv q) {log : List (Ev B K D)} (ha : Agree q log) (o : OutOp B K D)
    (hf : o.Fine) {q' : Q B K D} {l : List (Ev B K D)} (hs : outStep q o = .ok (q', l)) : Agree q' (log ++ l) := by
  have hsame : vmsgs q' = vmsgs q → (∀ id key, since id key (log ++ l) = since id key log) → Agree q' (log ++ l) := by
    intro h1 h2 id key
    rw [h2]
    unfold queued
    rw [h1]
    exact ha id key
  cases o with
  | broadcast b => cases hs; exact hsame rfl (fun id key => by rw [since_append])
  | list ids => cases hs; exact hsame rfl (fun id key => by rw [since_append])
  | swarm t id =>
    obtain ⟨q1, h1, _, _, _, h5⟩ := appendSwarm_spec w t id hf
    simp only [outStep, h1, Res.ok_bind, Res.pure_eq, Res.ok.injEq, Prod.mk.injEq] at hs
    obtain ⟨rfl, rfl⟩ := hs
    exact hsame h5 (fun id key => by rw [since_append])
  | vstig t id key e =>
    rcases appendVstig_spec v t id key e with ⟨m, hq, hts, h1⟩ | ⟨hlt, q1, h1, v1, _, _, _, _, _, _, hmem⟩
    · simp only [outStep, h1, Res.ok_bind, Res.pure_eq, Res.ok.injEq, Prod.mk.injEq] at hs
      obtain ⟨rfl, rfl⟩ := hs
      intro id' key'
      rw [since_append]
      by_cases hc : id = id' ∧ key = key'
      · obtain ⟨rfl, rfl⟩ := hc
        right
        rcases ha id key with ⟨_, hn⟩ | ⟨m', hm', pre, post, h2, h3, h4⟩
        · rw [hn] at hq; exact absurd hq (by simp)
        · rw [hq] at hm'; cases hm'
          refine ⟨m, hq, pre, post ++ [(t, e)], by simp [h2], h3, ?_⟩
          intro x hx
          rcases List.mem_append.mp hx with h | h
          · exact h4 x h
          · simp only [List.mem_singleton] at h; subst h; exact hts
      · simp only [hc, if_false]; exact ha id' key'
    · simp only [outStep, h1, Res.ok_bind, Res.pure_eq, Res.ok.injEq, Prod.mk.injEq] at hs
      obtain ⟨rfl, rfl⟩ := hs
      intro id' key'
      rw [since_append]
      by_cases hc : id = id' ∧ key = key'
      · obtain ⟨rfl, rfl⟩ := hc
        right
        refine ⟨⟨q.brk, t, id, key, e⟩, (queued_iff v1 _ _ _).mpr ⟨(hmem _).mpr (.inr rfl), rfl, rfl⟩, ?_⟩
        refine ⟨since id key log, [], by simp, ?_, by simp⟩
        rcases ha id key with ⟨hn, _⟩ | ⟨m', hm', pre, post, h2, h3, h4⟩
        · rw [hn]; simp
        · have := hlt m' hm'
          rw [h2]
          intro x hx
          rcases List.mem_append.mp hx with h | h
          · exact Nat.lt_trans (h3 x h) this
          · rcases List.mem_cons.mp h with rfl | h
            · exact this
            · exact Nat.lt_of_le_of_lt (h4 x h) this
      · simp only [hc, if_false]
        rcases ha id' key' with ⟨hn, hq⟩ | ⟨m', hm', h2⟩
        · left
          refine ⟨hn, ?_⟩
          rw [queued_none] at hq ⊢
          intro m hm
          rcases (hmem m).mp hm with h | h
          · exact hq m h.1
          · rw [h]; exact hc
        · right
          refine ⟨m', ?_, h2⟩
          obtain ⟨h3, h4, h5⟩ := (queued_iff v _ _ _).mp hm'
          refine (queued_iff v1 _ _ _).mpr ⟨(hmem _).mpr (.inl ⟨h3, ?_⟩), h4, h5⟩
          rw [h4, h5]
          rintro ⟨a, b⟩
          exact hc ⟨a.symm, b.symm⟩
  | send =>
    obtain ⟨q1, h1, v1, _, hcase⟩ := next_spec v
    simp only [outStep, h1, Res.ok_bind, Res.pure_eq, Res.ok.injEq, Prod.mk.injEq] at hs
    obtain ⟨rfl, rfl⟩ := hs
    rcases hcase with ⟨t, id, key, e, hfst, hqn, _, hmem⟩ | ⟨hne, hsm⟩
    · intro id' key'
      rw [hfst]
      simp only [Option.toList_some, List.map_cons, List.map_nil]
      rw [since_append]
      by_cases hc : id = id' ∧ key = key'
      · obtain ⟨rfl, rfl⟩ := hc
        left
        exact ⟨by simp, hqn⟩
      · simp only [hc, if_false]
        rcases ha id' key' with ⟨hn, hq⟩ | ⟨m', hm', h2⟩
        · left
          refine ⟨hn, ?_⟩
          rw [queued_none] at hq ⊢
          intro m hm
          exact hq m ((hmem m).mp hm).1
        · right
          refine ⟨m', ?_, h2⟩
          obtain ⟨h3, h4, h5⟩ := (queued_iff v _ _ _).mp hm'
          refine (queued_iff v1 _ _ _).mpr ⟨(hmem _).mpr ⟨h3, ?_⟩, h4, h5⟩
          rw [h4, h5]
          rintro ⟨a, b⟩
          exact hc ⟨a.symm, b.symm⟩
    · refine hsame hsm ?_
      intro id' key'
      cases hfq : first q with
      | none => simp
      | some m =>
        simp only [Option.toList_some, List.map_cons, List.map_nil]
        rw [since_append]
        cases m with
        | vstig t id key e => exact absurd hfq (hne t id key e)
        | _ => rfl

/-- C20.  Whatever the history, for every stigmergy and key: nothing is queued if nothing was appended since the last send;
otherwise exactly one message is queued, and it is the newest of those appended since. -/
theorem C20_one_newest (ops : List (OutOp B K D)) (hf : ∀ o ∈ ops, o.Fine) :
    ∃ q log, outRun new [] ops = .ok (q, log) ∧ ∀ id key,
      (since id key log = [] → (contents q).filter (isFor id key) = []) ∧
      (since id key log ≠ [] → ∃ t e, (contents q).filter (isFor id key) = [.vstig t id key e] ∧
        Newest (since id key log) t e ∧ ∀ x ∈ since id key log, x.2.ts ≤ e.ts) := by
  obtain ⟨q, log, h1, v, _, h⟩ := outRun_spec (P := fun q log _ => Agree q log)
    (fun q log _ o q' l v w hf ha hs => agree_step v w ha o hf hs) ops hf new [] [] new_inv swInv_new (by
      intro id key; left; simp [since, queued, vmsgs, new])
  refine ⟨q, log, h1, ?_⟩
  intro id key
  rw [filter_contents v]
  rcases h id key with ⟨h2, h3⟩ | ⟨m, h2, h3⟩
  · refine ⟨fun _ => ?_, fun h => absurd h2 h⟩
    rw [queued_none] at h3
    rw [List.filter_eq_nil_iff.mpr (fun m hm => by simpa using h3 m hm)]
    rfl
  · have hm := (queued_iff v _ _ _).mp h2
    have hfl : (vmsgs q).filter (fun m => m.id = id ∧ m.key = key) = [m] := by
      apply filter_unique (nodup_vmsgs v) hm.1 (by simp [hm.2])
      intro b hb hp
      simp only [decide_eq_true_eq] at hp
      exact inj_key v hb hm.1 (hp.1.trans hm.2.1.symm) (hp.2.trans hm.2.2.symm)
    refine ⟨fun h => ?_, fun _ => ⟨m.type, m.elem, ?_, h3, ?_⟩⟩
    · obtain ⟨pre, post, h4, _⟩ := h3
      rw [h] at h4; simp at h4
    · rw [hfl]; simp [hm.2.1, hm.2.2]
    · obtain ⟨pre, post, h4, h5, h6⟩ := h3
      rw [h4]
      intro x hx
      rcases List.mem_append.mp hx with h | h
      · exact Nat.le_of_lt (h5 x h)
      · rcases List.mem_cons.mp h with rfl | h
        · exact Nat.le_refl _
        · exact h6 x h

/-- A query is replaced by a newer put, an older put is dropped. -/
example : ((outRun (new : Q Nat Nat Nat) [] [.vstig .query 3 4 ⟨7, 1, 0⟩, .vstig .put 3 5 ⟨7, 1, 0⟩, .vstig .put 3 4 ⟨8, 2, 0⟩,
    .vstig .put 3 4 ⟨9, 1, 5⟩])) matches
    .ok (⟨[], [], [], [], [⟨1, .put, 3, 5, ⟨7, 1, 0⟩⟩, ⟨2, .put, 3, 4, ⟨8, 2, 0⟩⟩], [], _, _⟩, _) := by rfl

/-! #### C21 -/

/-- The priority classes, smaller first. -/
def prio : Msg B K D → Nat
  | .broadcast _ => 0
  | .list _ => 1
  | .vstig .put .. => 2
  | .vstig .query .. => 3
  | .swarm .join _ => 4
  | .swarm .leave _ => 5

/-- Take messages out: `n` times first, then next. -/
def drain : Nat → Q B K D → Res (List (Msg B K D) × Q B K D)
  | 0, q => .ok ([], q)
  | n + 1, q => do
    let q' ← next q
    let (l, q'') ← drain n q'
    pure ((first q).toList ++ l, q'')

theorem length_contents (q : Q B K D) : (contents q).length =
    q.bc.length + q.list.length + q.join.length + q.leave.length + q.put.length + q.query.length := by
  simp [contents]; omega

theorem prio_contents (q : Q B K D) : (contents q).Pairwise (fun a b => prio a ≤ prio b) := by
  have hc : ∀ {α : Type} (l : List α) (f : α → Msg B K D) (c : Nat), (∀ a, prio (f a) = c) →
      (l.map f).Pairwise (fun a b => prio a ≤ prio b) := by
    intro α l f c h
    rw [List.pairwise_map]
    exact List.pairwise_of_forall (fun a b => by rw [h, h]; exact Nat.le_refl _)
  simp only [contents, List.pairwise_append, List.mem_append, List.mem_map]
  refine ⟨⟨⟨⟨⟨hc _ _ 0 (fun _ => rfl), hc _ _ 1 (fun _ => rfl), ?_⟩, hc _ _ 2 (fun _ => rfl), ?_⟩, hc _ _ 3 (fun _ => rfl), ?_⟩,
    hc _ _ 4 (fun _ => rfl), ?_⟩, hc _ _ 5 (fun _ => rfl), ?_⟩
  · rintro a ⟨_, _, rfl⟩ b ⟨_, _, rfl⟩; simp [prio]
  · rintro a (⟨_, _, rfl⟩ | ⟨_, _, rfl⟩) b ⟨_, _, rfl⟩ <;> simp [prio]
  · rintro a ((⟨_, _, rfl⟩ | ⟨_, _, rfl⟩) | ⟨_, _, rfl⟩) b ⟨_, _, rfl⟩ <;> simp [prio]
  · rintro a (((⟨_, _, rfl⟩ | ⟨_, _, rfl⟩) | ⟨_, _, rfl⟩) | ⟨_, _, rfl⟩) b ⟨_, _, rfl⟩ <;> simp [prio]
  · rintro a ((((⟨_, _, rfl⟩ | ⟨_, _, rfl⟩) | ⟨_, _, rfl⟩) | ⟨_, _, rfl⟩) | ⟨_, _, rfl⟩) b ⟨_, _, rfl⟩ <;> simp [prio]

theorem drain_spec {q : Q B K D} (v : Inv q) (n : Nat) (hn : n ≤ (contents q).length) :
    ∃ q', drain n q = .ok ((contents q).take n, q') ∧ contents q' = (contents q).drop n := by
  induction n generalizing q with
  | zero => exact ⟨q, by simp [drain], by simp⟩
  | succ n ih =>
    obtain ⟨q1, h1, v1, h2, _⟩ := next_spec v
    obtain ⟨q', h3, h4⟩ := ih v1 (by rw [h2, List.length_tail]; omega)
    refine ⟨q', ?_, ?_⟩
    · simp only [drain, h1, h3, Res.ok_bind, Res.pure_eq, first_eq, h2]
      congr 2
      cases hc : contents q with
      | nil => rw [hc] at hn; simp at hn
      | cons a l => simp
    · rw [h4, h2, List.drop_tail]

/-- The messages of one class, in the order they will leave. -/
def ofClass (c : Nat) (q : Q B K D) : List (Msg B K D) := (contents q).filter (fun m => prio m = c)

theorem class_map {α : Type} (l : List α) (f : α → Msg B K D) (d c : Nat) (h : ∀ a, prio (f a) = d) :
    (l.map f).filter (fun m => prio m = c) = if d = c then l.map f else [] := by
  split
  · rename_i e
    rw [List.filter_eq_self]
    intro a ha; obtain ⟨b, _, rfl⟩ := List.mem_map.mp ha; simp [h, e]
  · rename_i e
    rw [List.filter_eq_nil_iff]
    intro a ha; obtain ⟨b, _, rfl⟩ := List.mem_map.mp ha; simp [h, e]

theorem ofClass_eq (c : Nat) (q : Q B K D) : ofClass c q =
    (if 0 = c then q.bc.map .broadcast else []) ++ (if 1 = c then q.list.map .list else []) ++
    (if 2 = c then q.put.map (fun m => .vstig .put m.id m.key m.elem) else []) ++
    (if 3 = c then q.query.map (fun m => .vstig .query m.id m.key m.elem) else []) ++
    (if 4 = c then q.join.map (.swarm .join) else []) ++ (if 5 = c then q.leave.map (.swarm .leave) else []) := by
  simp only [ofClass, contents, List.filter_append]
  rw [class_map _ _ 0 c (fun _ => rfl), class_map _ _ 1 c (fun _ => rfl), class_map _ _ 2 c (fun _ => rfl),
    class_map _ _ 3 c (fun _ => rfl), class_map _ _ 4 c (fun _ => rfl), class_map _ _ 5 c (fun _ => rfl)]

/-- The states histories lead to. -/
def Reached (q : Q B K D) : Prop := ∃ ops log, (∀ o ∈ ops, OutOp.Fine o) ∧ outRun new [] ops = .ok (q, log)

theorem Reached.inv {q : Q B K D} (h : Reached q) : Inv q ∧ SwInv q := by
  obtain ⟨ops, log, hf, h⟩ := h
  obtain ⟨q', log', h1, v, w, _⟩ := outRun_spec (P := fun _ _ _ => True) (by simp) ops hf
    (new : Q B K D) [] [] new_inv swInv_new trivial
  rw [h] at h1
  cases h1
  exact ⟨v, w⟩

/-- C21, one step.  `first` shows what `next` removes, the rest stays as it was; the queue is ordered by class; `size` counts
it. -/
theorem C21_first_next {q : Q B K D} (h : Reached q) :
    (contents q).Pairwise (fun a b => prio a ≤ prio b) ∧ size q = (contents q).length % 4294967296 ∧
      ∃ q', next q = .ok q' ∧ contents q = (first q).toList ++ contents q' ∧ (first q = none ↔ contents q = []) := by
  obtain ⟨q', h2, _, h3, _⟩ := next_spec h.inv.1
  refine ⟨prio_contents q, by simp [size, length_contents, U32], q', h2, ?_⟩
  rw [first_eq, h3]
  cases contents q <;> simp

/-- C21, draining.  Repeating `first` and `next` as many times as there are messages empties the queue, and the messages
leave in the order of the classes. -/
theorem C21_drain {q : Q B K D} (h : Reached q) (hlen : (contents q).length < 4294967296) :
    ∃ q' out, drain (size q) q = .ok (out, q') ∧ out.length = size q ∧
        out = contents q ∧ out.Pairwise (fun a b => prio a ≤ prio b) ∧ size q' = 0 ∧ first q' = none := by
  have hs : size q = (contents q).length := by
    rw [length_contents] at hlen ⊢
    exact Nat.mod_eq_of_lt (by unfold U32; exact hlen)
  obtain ⟨q', h2, h3⟩ := drain_spec h.inv.1 (size q) (by rw [hs]; exact Nat.le_refl _)
  rw [hs, List.take_length] at h2
  rw [hs, List.drop_length] at h3
  refine ⟨q', contents q, by rw [hs]; exact h2, hs.symm, rfl, prio_contents q, ?_, ?_⟩
  · have := length_contents q'
    rw [h3] at this
    unfold size; rw [← this]; rfl
  · rw [first_eq, h3]; rfl

/-- C21, first-in first-out for broadcasts: a new one goes behind all others, nothing else moves. -/
theorem C21_fifo_broadcast (q : Q B K D) (b : B) (c : Nat) :
    ofClass c (appendBroadcast q b) = ofClass c q ++ (if c = 0 then [.broadcast b] else []) := by
  by_cases hc : c = 0
  · subst hc; simp [ofClass_eq, appendBroadcast]
  · have hc' : ¬ 0 = c := fun h => hc h.symm
    simp [ofClass_eq, appendBroadcast, hc, hc']

theorem filter_class (id : Nat) (key : K) (t : VType) (l : List (VMsg K D)) :
    (l.map (fun m => (Msg.vstig t m.id m.key m.elem : Msg B K D))).filter (fun m => !isFor id key m) =
      (l.filter (other id key)).map (fun m => .vstig t m.id m.key m.elem) := by
  rw [List.filter_map]
  congr 1
  apply List.filter_congr
  intro m _
  by_cases h1 : m.id = id <;> by_cases h2 : m.key = key <;> simp [isFor, other, h1, h2]

theorem filter_not_isFor {α : Type} (id : Nat) (key : K) (l : List α) (f : α → Msg B K D) (h : ∀ a, isFor id key (f a) = false) :
    (l.map f).filter (fun m => !isFor id key m) = l.map f := by
  rw [List.filter_eq_self]
  intro a ha; obtain ⟨b, _, rfl⟩ := List.mem_map.mp ha; simp [h]

/-- C21, first-in first-out for stigmergy messages: a message is dropped because a newer one for its key is queued, or goes
behind all others of its class, displacing only the older message for its key. -/
theorem C21_fifo_vstig {q : Q B K D} (h : Reached q) (t : VType) (id : Nat) (key : K) (e : Elem D) :
    (∃ t' e', .vstig t' id key e' ∈ contents q ∧ e.ts ≤ e'.ts ∧ appendVstig q t id key e = .ok q) ∨
    (∀ t' e', .vstig t' id key e' ∈ contents q → e'.ts < e.ts) ∧ ∃ q', appendVstig q t id key e = .ok q' ∧
      ∀ c, ofClass c q' = (ofClass c q).filter (fun m => !isFor id key m) ++
        (if c = prio (Msg.vstig t id key e : Msg B K D) then [.vstig t id key e] else []) := by
  have v := h.inv.1
  have key1 : ∀ t' e', (.vstig t' id key e' : Msg B K D) ∈ contents q ↔ ∃ m, queued q id key = some m ∧ m.type = t' ∧ m.elem = e' := by
    intro t' e'
    have : (.vstig t' id key e' : Msg B K D) ∈ contents q ↔ (.vstig t' id key e' : Msg B K D) ∈ (contents q).filter (isFor id key) := by
      simp [List.mem_filter, isFor]
    rw [this, filter_contents v]
    simp only [List.mem_map, List.mem_filter, decide_eq_true_eq]
    constructor
    · rintro ⟨m, ⟨hm, h1, h2⟩, h3⟩
      cases h3
      exact ⟨m, (queued_iff v _ _ _).mpr ⟨hm, h1, h2⟩, rfl, rfl⟩
    · rintro ⟨m, hm, rfl, rfl⟩
      obtain ⟨h1, h2, h3⟩ := (queued_iff v _ _ _).mp hm
      exact ⟨m, ⟨h1, h2, h3⟩, by rw [h2, h3]⟩
  rcases appendVstig_spec v t id key e with ⟨m, hq, hts, h1⟩ | ⟨hlt, q1, h1, _, hbc, hl, hj, hv, hp, hqq, _⟩
  · left
    exact ⟨m.type, m.elem, (key1 _ _).mpr ⟨m, hq, rfl, rfl⟩, hts, h1⟩
  · right
    refine ⟨?_, q1, h1, ?_⟩
    · intro t' e' hm
      obtain ⟨m, hm', _, rfl⟩ := (key1 _ _).mp hm
      exact hlt m hm'
    · intro c
      rw [ofClass_eq, ofClass_eq, hbc, hl, hj, hv, hp, hqq]
      simp only [List.filter_append, apply_ite (List.filter (fun m => !isFor id key m)), List.filter_nil, filter_class]
      rw [filter_not_isFor id key q.bc _ (fun _ => rfl), filter_not_isFor id key q.list _ (fun _ => rfl),
        filter_not_isFor id key q.join _ (fun _ => rfl), filter_not_isFor id key q.leave _ (fun _ => rfl)]
      cases t
      · by_cases hc : c = 2
        · subst hc; simp [prio]
        · have hc' : ¬ 2 = c := fun h => hc h.symm
          simp [prio, hc, hc']
      · by_cases hc : c = 3
        · subst hc; simp [prio]
        · have hc' : ¬ 3 = c := fun h => hc h.symm
          simp [prio, hc, hc']

/-- C21, first-in first-out for join and leave messages while no list is queued: the message goes behind all others of its
class unless it is there already, and the opposite message is withdrawn. -/
theorem C21_fifo_swarm (q : Q B K D) (hl : q.list = []) (id : Nat) :
    (∃ q', appendSwarm q .join id = .ok q' ∧ q'.join = (if id ∈ q.join then q.join else q.join ++ [id]) ∧
      q'.leave = q.leave.erase id ∧ ∀ c, c ≠ 4 → c ≠ 5 → ofClass c q' = ofClass c q) ∧
    (∃ q', appendSwarm q .leave id = .ok q' ∧ q'.leave = (if id ∈ q.leave then q.leave else q.leave ++ [id]) ∧
      q'.join = q.join.erase id ∧ ∀ c, c ≠ 4 → c ≠ 5 → ofClass c q' = ofClass c q) := by
  have ha : ∀ l : List Nat, appendTo l id = if id ∈ l then l else l ++ [id] := by
    intro l
    unfold appendTo
    cases l with
    | nil => simp
    | cons a l =>
      by_cases hm : id ∈ a :: l
      · rw [if_neg (by simp), if_pos hm, if_pos]
        rw [List.any_eq_true]; exact ⟨id, hm, by simp⟩
      · rw [if_neg (by simp), if_neg hm, if_neg]
        rw [List.any_eq_true]; rintro ⟨x, hx, hxe⟩
        rw [beq_iff_eq] at hxe; exact hm (hxe ▸ hx)
  constructor
  · refine ⟨_, by rw [appendSwarm, hl], ha _, rfl, ?_⟩
    intro c h4 h5
    have h4' : ¬ 4 = c := fun h => h4 h.symm
    have h5' : ¬ 5 = c := fun h => h5 h.symm
    simp [ofClass_eq, hl, h4', h5']
  · refine ⟨_, by rw [appendSwarm, hl], ha _, rfl, ?_⟩
    intro c h4 h5
    have h4' : ¬ 4 = c := fun h => h4 h.symm
    have h5' : ¬ 5 = c := fun h => h5 h.symm
    simp [ofClass_eq, hl, h4', h5']

/-- Draining a queue with messages of several classes. -/
example : ((outRun (new : Q Nat Nat Nat) [] [.swarm .leave 1, .swarm .join 2, .vstig .query 3 4 ⟨7, 1, 0⟩, .vstig .put 3 5 ⟨7, 1, 0⟩,
    .broadcast 8, .broadcast 9]).bind fun (q, _) => drain (size q) q) matches
    .ok ([.broadcast 8, .broadcast 9, .vstig .put 3 5 _, .vstig .query 3 4 _, .swarm .join 2, .swarm .leave 1], _) := by rfl

end Outgoing

end Buzz.Props
