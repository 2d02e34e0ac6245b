import Verif.Swarm
import Verif.Props.Queues
import Mathlib.Data.List.Nodup

/-
C28 (what is known of the neighbours' swarms), C29 (the robot's own swarms) and C54 (swarm messages on the wire).
-/
namespace Buzz.Props

open Buzz.Swarm Buzz.OutMsg Buzz.Msg

/-! ## C28 -/

/-- What can happen: a message from robot `r`, or the update at the end of a control step. -/
inductive News where
  | join (r s : Nat)
  | leave (r s : Nat)
  | list (r : Nat) (ids : List Nat)
  | tick
  deriving DecidableEq, Repr

/-- The code's reaction. -/
def newsStep (m : Members) : News → Members
  | .join r s => mjoin m r s
  | .leave r s => mleave m r s
  | .list r ids => mrefresh m r ids
  | .tick => update m

/-- The sender of an event. -/
def News.from : News → Option Nat
  | .join r _ => some r
  | .leave r _ => some r
  | .list r _ => some r
  | .tick => none

/-- What an event says about robot `r` and swarm `s`. -/
def News.says (r s : Nat) : News → Option Bool
  | .join r' s' => if r' = r ∧ s' = s then some true else none
  | .leave r' s' => if r' = r ∧ s' = s then some false else none
  | .list r' ids => if r' = r then some (decide (s ∈ ids)) else none
  | .tick => none

/-- The specification.  Look back from the present, latest event first.  `n` is the length of the silence of `r` seen so far.
The answer is that of the latest event about `r` and `s`, unless a silence of 51 updates lies in between. -/
def believed (r s : Nat) : List News → Nat → Bool
  | [], _ => false
  | e :: h, n =>
    match e.says r s with
    | some b => b
    | none =>
      if e.from = some r then believed r s h 0
      else if e = .tick then (if n = 50 then false else believed r s h (n + 1))
      else believed r s h n

/-- A list message that was accepted: at least one id, all different. -/
def News.Fine : News → Prop
  | .list _ ids => ids ≠ [] ∧ ids.Nodup
  | _ => True

/-- What the table knows about one robot. -/
def Knows (h : List News) (r : Nat) : Option MElem → Prop
  | none => ∀ s n, n ≤ 50 → believed r s h n = false
  | some e => e.age ≤ 50 ∧ e.swarms ≠ [] ∧ e.swarms.Nodup ∧
      ∀ s n, n ≤ 50 → believed r s h n = decide (e.age + n ≤ 50 ∧ s ∈ e.swarms)

theorem get_update {m : Members} (w : FMap.Ok m) (hb : ∀ r e, FMap.get m r = some e → e.age ≤ 50) (r : Nat) :
    FMap.get (update m) r =
      match FMap.get m r with
      | none => none
      | some e => if e.age = 50 then none else some ⟨e.swarms, e.age + 1⟩ := by
  induction m with
  | nil => rfl
  | cons p m ih =>
    have w' : FMap.Ok m := by unfold FMap.Ok at *; simp only [List.map_cons, List.nodup_cons] at w; exact w.2
    have hp : ∀ e, FMap.get m p.1 ≠ some e := by
      intro e he
      unfold FMap.Ok at w; simp only [List.map_cons, List.nodup_cons] at w
      exact w.1 (List.mem_map.mpr ⟨(p.1, e), FMap.mem_of_get he, rfl⟩)
    have hb' : ∀ r e, FMap.get m r = some e → e.age ≤ 50 := by
      intro r e he
      apply hb r e
      rw [FMap.get_cons, if_neg]
      · exact he
      · rintro rfl; exact hp e he
    have ha : p.2.age ≤ 50 := hb p.1 p.2 (by rw [FMap.get_cons, if_pos rfl])
    have hmod : (p.2.age + 1) % U16 = p.2.age + 1 := Nat.mod_eq_of_lt (by unfold U16; omega)
    have ih := ih w' hb'
    unfold update at ih ⊢
    simp only [List.map_cons, hmod]
    rw [FMap.get_cons]
    by_cases h50 : p.2.age = 50
    · rw [List.filter_cons_of_neg (by simp [h50, ageMax]), ih]
      by_cases hr : p.1 = r
      · subst hr
        rw [if_pos rfl]
        cases hg : FMap.get m p.1 with
        | none => simp [h50]
        | some e => exact absurd hg (hp e)
      · rw [if_neg hr]
    · rw [List.filter_cons_of_pos (by simp [ageMax]; omega), FMap.get_cons, ih]
      by_cases hr : p.1 = r
      · simp [hr, h50]
      · simp [hr]

theorem update_ok {m : Members} (w : FMap.Ok m) : FMap.Ok (update m) := by
  unfold FMap.Ok update at *
  have : (m.map (fun p => (p.1, (⟨p.2.swarms, (p.2.age + 1) % U16⟩ : MElem)))).map Prod.fst = m.map Prod.fst := by
    rw [List.map_map]; rfl
  rw [← this] at w
  exact w.sublist (List.filter_sublist.map _)

theorem any_beq (l : List Nat) (s : Nat) : l.any (· == s) = decide (s ∈ l) := by
  induction l with
  | nil => rfl
  | cons a l ih =>
    simp only [List.any_cons, ih, List.mem_cons]
    by_cases h : a = s
    · simp [h]
    · have : s ≠ a := fun h' => h h'.symm
      simp [h, this]

/-- Events that are not from `r` and are not updates leave `r` alone. -/
theorem believed_other {r : Nat} {e : News} (h : e.from ≠ some r) (ht : e ≠ .tick) (s : Nat) (hist : List News) (n : Nat) :
    believed r s (e :: hist) n = believed r s hist n := by
  have hs : e.says r s = none := by
    cases e <;> simp [News.from] at h <;> simp [News.says, h]
  simp [believed, hs, h, ht]

theorem knows_other {r : Nat} {e : News} (h : e.from ≠ some r) (ht : e ≠ .tick) {hist : List News} {o : Option MElem}
    (k : Knows hist r o) : Knows (e :: hist) r o := by
  cases o with
  | none => intro s n hn; rw [believed_other h ht]; exact k s n hn
  | some x =>
    refine ⟨k.1, k.2.1, k.2.2.1, ?_⟩
    intro s n hn; rw [believed_other h ht]; exact k.2.2.2 s n hn

theorem newsStep_spec {m : Members} {h : List News} (w : FMap.Ok m) (k : ∀ r, Knows h r (FMap.get m r)) (e : News)
    (hf : e.Fine) : FMap.Ok (newsStep m e) ∧ ∀ r, Knows (e :: h) r (FMap.get (newsStep m e) r) := by
  cases e with
  | join r' s' =>
    constructor
    · simp only [newsStep, mjoin]
      split
      · split <;> exact w.set _ _
      · exact w.set _ _
    intro r
    have hget : FMap.get (mjoin m r' s') r = if r = r' then
        some (match FMap.get m r' with
          | some e => if s' ∈ e.swarms then ⟨e.swarms, 0⟩ else ⟨e.swarms ++ [s'], 0⟩
          | none => ⟨[s'], 0⟩) else FMap.get m r := by
      unfold mjoin
      cases hg : FMap.get m r' with
      | none => simp only [FMap.get_set]
      | some e =>
        simp only [any_beq, decide_eq_true_eq]
        split <;> simp only [FMap.get_set]
    simp only [newsStep, hget]
    by_cases hr : r = r'
    · subst hr
      rw [if_pos rfl]
      have kr := k r
      have hb : ∀ s n, believed r s (.join r s' :: h) n = if s = s' then true else believed r s h 0 := by
        intro s n
        by_cases hs : s = s'
        · simp [believed, News.says, hs]
        · have : s' ≠ s := fun h => hs h.symm
          simp [believed, News.says, News.from, hs, this]
      cases hg : FMap.get m r with
      | none =>
        rw [hg] at kr
        refine ⟨by simp, by simp, by simp, ?_⟩
        intro s n hn
        rw [hb, kr s 0 (by omega)]
        by_cases hs : s = s' <;> simp [hs, hn]
      | some e =>
        rw [hg] at kr
        obtain ⟨h1, h2, h3, h4⟩ := kr
        by_cases hm : s' ∈ e.swarms
        · simp only [hm, if_true]
          refine ⟨by simp, h2, h3, ?_⟩
          intro s n hn
          rw [hb, h4 s 0 (by omega)]
          by_cases hs : s = s'
          · simp [hs, hm, hn]
          · simp [hs, h1, hn]
        · simp only [hm, if_false]
          refine ⟨by simp, by simp, ?_, ?_⟩
          · rw [List.nodup_append]
            exact ⟨h3, by simp, by rintro a ha b hb' rfl; simp at hb'; exact hm (hb' ▸ ha)⟩
          intro s n hn
          rw [hb, h4 s 0 (by omega)]
          by_cases hs : s = s'
          · simp [hs, hn]
          · simp [hs, h1, hn]
    · rw [if_neg hr]
      exact knows_other (by simpa [News.from] using fun h => hr h.symm) (by simp) (k r)
  | leave r' s' =>
    constructor
    · simp only [newsStep, mleave]
      split
      · split
        · exact w.del _
        · exact w.set _ _
      · exact w
    intro r
    have hget : FMap.get (mleave m r' s') r = if r = r' then
        (match FMap.get m r' with
          | some e => if (e.swarms.erase s') = [] then none else some ⟨e.swarms.erase s', 0⟩
          | none => none) else FMap.get m r := by
      unfold mleave
      cases hg : FMap.get m r' with
      | none =>
        simp only
        by_cases hr : r = r'
        · rw [if_pos hr, hr, hg]
        · rw [if_neg hr]
      | some e =>
        simp only [List.isEmpty_iff]
        split
        · rw [FMap.get_del]
        · rw [FMap.get_set]
    simp only [newsStep, hget]
    by_cases hr : r = r'
    · subst hr
      rw [if_pos rfl]
      have kr := k r
      have hb : ∀ s n, believed r s (.leave r s' :: h) n = if s = s' then false else believed r s h 0 := by
        intro s n
        by_cases hs : s = s'
        · simp [believed, News.says, hs]
        · have : s' ≠ s := fun h => hs h.symm
          simp [believed, News.says, News.from, hs, this]
      cases hg : FMap.get m r with
      | none =>
        rw [hg] at kr
        intro s n hn
        rw [hb, kr s 0 (by omega)]
        simp
      | some e =>
        rw [hg] at kr
        obtain ⟨h1, h2, h3, h4⟩ := kr
        by_cases he : e.swarms.erase s' = []
        · simp only [he, if_true]
          intro s n hn
          rw [hb, h4 s 0 (by omega)]
          by_cases hs : s = s'
          · simp [hs]
          · have : s ∉ e.swarms := by
              intro hin
              have := (h3.mem_erase_iff (a := s) (b := s')).mpr ⟨hs, hin⟩
              rw [he] at this; simp at this
            simp [this]
        · simp only [he, if_false]
          refine ⟨by simp, he, h3.erase _, ?_⟩
          intro s n hn
          rw [hb, h4 s 0 (by omega)]
          simp only [h3.mem_erase_iff]
          by_cases hs : s = s'
          · simp [hs]
          · simp [hs, h1, hn]
    · rw [if_neg hr]
      exact knows_other (by simpa [News.from] using fun h => hr h.symm) (by simp) (k r)
  | list r' ids =>
    refine ⟨w.set _ _, ?_⟩
    intro r
    simp only [newsStep, mrefresh, FMap.get_set]
    by_cases hr : r = r'
    · subst hr
      rw [if_pos rfl]
      refine ⟨by simp, hf.1, hf.2, ?_⟩
      intro s n hn
      simp [believed, News.says, hn]
    · rw [if_neg hr]
      exact knows_other (by simpa [News.from] using fun h => hr h.symm) (by simp) (k r)
  | tick =>
    have hbound : ∀ r e, FMap.get m r = some e → e.age ≤ 50 := by
      intro r e he
      have := k r; rw [he] at this; exact this.1
    refine ⟨update_ok w, ?_⟩
    intro r
    simp only [newsStep, get_update w hbound]
    have kr := k r
    have hb : ∀ s n, believed r s (.tick :: h) n = if n = 50 then false else believed r s h (n + 1) := by
      intro s n
      simp [believed, News.says, News.from]
    cases hg : FMap.get m r with
    | none =>
      rw [hg] at kr
      intro s n hn
      rw [hb]
      split
      · rfl
      · exact kr s (n + 1) (by omega)
    | some e =>
      rw [hg] at kr
      obtain ⟨h1, h2, h3, h4⟩ := kr
      by_cases h50 : e.age = 50
      · simp only [h50, if_true]
        intro s n hn
        rw [hb]
        split
        · rfl
        · rw [h4 s (n + 1) (by omega)]
          simp [h50]
      · simp only [h50, if_false]
        refine ⟨by simp; omega, h2, h3, ?_⟩
        intro s n hn
        rw [hb]
        simp only
        split
        · rw [eq_comm, decide_eq_false_iff_not]; omega
        · rw [h4 s (n + 1) (by omega)]
          have : e.age + (n + 1) ≤ 50 ↔ e.age + 1 + n ≤ 50 := by omega
          simp only [this]

/-- The history of a run, latest event first. -/
theorem news_run (evs : List News) (hf : ∀ e ∈ evs, e.Fine) :
    ∀ (m : Members) (h : List News), FMap.Ok m → (∀ r, Knows h r (FMap.get m r)) →
      FMap.Ok (evs.foldl newsStep m) ∧ ∀ r, Knows (evs.reverse ++ h) r (FMap.get (evs.foldl newsStep m) r) := by
  induction evs with
  | nil => intro m h w k; exact ⟨w, k⟩
  | cons e evs ih =>
    intro m h w k
    obtain ⟨w', k'⟩ := newsStep_spec w k e (hf e (List.mem_cons_self ..))
    have := ih (fun x hx => hf x (List.mem_cons_of_mem _ hx)) _ _ w' k'
    simpa using this

/-- **C28.** After any sequence of events a robot is reported to be in a swarm exactly when the latest event about the two says
so and no silence of 51 updates came after it. -/
theorem C28_membership_follows_news (evs : List News) (hf : ∀ e ∈ evs, e.Fine) (r s : Nat) :
    isIn (evs.foldl newsStep []) r s = believed r s evs.reverse 0 := by
  obtain ⟨_, k⟩ := news_run evs hf [] [] FMap.ok_nil (by intro r s n _; rfl)
  have := k r
  rw [List.append_nil] at this
  unfold isIn
  cases hg : FMap.get (evs.foldl newsStep []) r with
  | none => rw [hg] at this; exact (this s 0 (by omega)).symm
  | some e =>
    rw [hg] at this
    obtain ⟨h1, _, _, h4⟩ := this
    rw [h4 s 0 (by omega)]
    simp only [any_beq]
    simp [h1]

theorem believed_ticks (r s : Nat) : ∀ (k n : Nat) (h : List News), n + k ≤ 50 →
    believed r s (List.replicate k News.tick ++ h) n = believed r s h (n + k)
  | 0, n, h, _ => by simp
  | k + 1, n, h, hk => by
    rw [List.replicate_succ, List.cons_append]
    have : n ≠ 50 := by omega
    simp only [believed, News.says, News.from, this, if_false, if_true, reduceCtorEq]
    rw [believed_ticks r s k (n + 1) h (by omega)]
    congr 1
    omega

/-- **C28** corollary: 51 updates with no message from `r` forget everything about it, whatever went before. -/
theorem C28_silence_forgets (evs : List News) (hf : ∀ e ∈ evs, e.Fine) (r s : Nat) :
    isIn ((evs ++ List.replicate 51 News.tick).foldl newsStep []) r s = false := by
  rw [C28_membership_follows_news _ (by
    intro e he
    rcases List.mem_append.mp he with h | h
    · exact hf e h
    · rw [List.eq_of_mem_replicate h]; trivial)]
  have : List.replicate 51 News.tick = List.replicate 50 News.tick ++ [News.tick] := rfl
  rw [List.reverse_append, List.reverse_replicate, this, List.append_assoc, believed_ticks r s 50 0 _ (by omega)]
  simp [believed, News.says, News.from]

/-- **C28** corollary: up to 50 updates change nothing about a robot heard in the current step. -/
theorem C28_short_silence (evs : List News) (hf : ∀ e ∈ evs, e.Fine) (e : News) (he : e.Fine) (r s k : Nat)
    (hr : e.from = some r) (hk : k ≤ 50) :
    isIn ((evs ++ e :: List.replicate k News.tick).foldl newsStep []) r s = isIn ((evs ++ [e]).foldl newsStep []) r s := by
  rw [C28_membership_follows_news (evs ++ [e]) (by
    intro x hx
    rcases List.mem_append.mp hx with h | h
    · exact hf x h
    · rw [List.mem_singleton.mp h]; exact he), C28_membership_follows_news _ (by
    intro x hx
    rcases List.mem_append.mp hx with h | h
    · exact hf x h
    · rcases List.mem_cons.mp h with h | h
      · rw [h]; exact he
      · rw [List.eq_of_mem_replicate h]; trivial)]
  simp only [List.reverse_append, List.reverse_cons, List.reverse_replicate, List.reverse_nil, List.nil_append,
    List.append_assoc, List.singleton_append]
  rw [believed_ticks r s k 0 _ (by omega)]
  simp only [believed]
  cases e.says r s <;> simp [hr]

/-- C28 is not vacuous: joins, leaves, lists and silence all matter. -/
example : isIn ([News.join 1 7, .list 2 [7, 8], .leave 1 7, .tick, .join 1 9].foldl newsStep []) 1 7 = false ∧
    isIn ([News.join 1 7, .list 2 [7, 8], .leave 1 7, .tick, .join 1 9].foldl newsStep []) 1 9 = true ∧
    isIn ([News.join 1 7, .list 2 [7, 8], .leave 1 7, .tick, .join 1 9].foldl newsStep []) 2 8 = true := by
  decide

/-- The hypothesis on lists is needed: with a repeated id one leave does not remove it. -/
theorem C28_repeated_id : isIn ([News.list 1 [7, 7], .leave 1 7].foldl newsStep []) 1 7 = true := by decide

/-! ## C29 -/

variable {B K D : Type} [DecidableEq K]

/-- The operations of the swarm API that change something. -/
inductive SwOp where
  | create (i : Nat)
  | join (id : Nat)
  | leave (id : Nat)
  | select (id : Nat) (c : Int)
  | others (id1 i2 : Nat)
  | setOp (o : SetOp) (i id1 id2 : Nat)
  deriving Repr

/-- The code. -/
def swStep (s : St B K D) : SwOp → Res (Out (St B K D))
  | .create i => .ok (.ret (create s i).1 (some (create s i).2))
  | .join id => join s id
  | .leave id => leave s id
  | .select id c => select s id c
  | .others id1 i2 => others s id1 i2
  | .setOp o i id1 id2 => setOp s o i id1 id2

/-- Membership: `none` for a swarm the robot has never heard of. -/
abbrev Own := Nat → Option Bool

/-- Change one entry. -/
def Own.set (m : Own) (i : Nat) (b : Bool) : Own := fun j => if j = i then some b else m j

/-- The specification; `none` is an error. -/
def specStep (m : Own) : SwOp → Option Own
  | .create i => some (match m i with | some _ => m | none => m.set i false)
  | .join id => (m id).map fun _ => m.set id true
  | .leave id => (m id).map fun _ => m.set id false
  | .select id c => (m id).map fun _ => m.set id (decide (c % 256 ≠ 0))
  | .others id1 i2 => (m id1).map fun b => m.set i2 !b
  | .setOp .union i a b => some (m.set i (m a == some true || m b == some true))
  | .setOp .intersection i a b => some (m.set i (m a == some true && m b == some true))
  | .setOp .difference i a b => some (m.set i (m a == some true && !(m b == some true)))

/-- The swarm an operation decides on. -/
def SwOp.target : SwOp → Nat
  | .create i => i
  | .join id => id
  | .leave id => id
  | .select id _ => id
  | .others _ i2 => i2
  | .setOp _ i _ _ => i

/-- `create` decides nothing about membership. -/
def SwOp.decides : SwOp → Bool
  | .create _ => false
  | _ => true

/-- Does the operation announce a departure? -/
def SwOp.tellsLeave : SwOp → Bool
  | .leave _ => true
  | .select _ _ => true
  | _ => false

/-- The membership a state stands for, as `in()` reports it. -/
def own (s : St B K D) : Own := fun id =>
  match in_ s id with
  | .ret _ (some v) => some (decide (v ≠ 0))
  | _ => none

theorem own_eq (s : St B K D) (id : Nat) : own s id = (FMap.get s.swarms id).map (fun x => decide (x ≠ 0)) := by
  unfold own in_
  cases FMap.get s.swarms id <;> simp

theorem u16_of_lt {i : Nat} (h : i < 65536) : u16 (i : Int) = i := by unfold u16; omega

theorem check_own (s : St B K D) (id : Nat) : check s id = (own s id == some true) := by
  rw [own_eq]
  unfold check
  cases FMap.get s.swarms id with
  | none => rfl
  | some x => by_cases h : x = 0 <;> simp [h]

/-- Storing a byte and queueing a message. -/
theorem store_spec {s : St B K D} (w : SwInv s.out) (id v : Nat) (t : Option SType) (hid : id < 65535) :
    ∃ s', store s id v t = .ok s' ∧ SwInv s'.out ∧ s'.stack = s.stack ∧ own s' = (own s).set id (decide (v ≠ 0)) ∧
      ∀ r i, (contents s'.out).foldl told r i =
        match t with
        | none => (contents s.out).foldl told r i
        | some t => if i = id then decide (t = .join) else (contents s.out).foldl told r i := by
  have hown : ∀ q : Q B K D, own ({ s with swarms := FMap.set s.swarms id v, out := q }) = (own s).set id (decide (v ≠ 0)) := by
    intro q
    funext j
    simp only [own_eq, Own.set, FMap.get_set]
    split <;> rfl
  cases t with
  | none => exact ⟨_, rfl, w, rfl, hown s.out, fun _ _ => rfl⟩
  | some t =>
    obtain ⟨q', h1, h2, h3, _⟩ := appendSwarm_spec w t id hid
    exact ⟨{ s with swarms := FMap.set s.swarms id v, out := q' }, by simp [store, h1], h2, rfl, hown q', h3⟩

/-- **C29.** One operation, for every state: it is an error exactly when the specification says so; otherwise `in()` afterwards
answers as specified for every swarm, the swarm stack is unchanged, and a robot that receives what is queued learns that this robot
is in the swarm whenever it is.  (`create` announces nothing: it never makes the robot a member.) -/
theorem C29_step {s : St B K D} (w : SwInv s.out) (o : SwOp) (hid : o.target < 65535) :
    match specStep (own s) o with
    | none => swStep s o = .ok .error
    | some m => ∃ s' v, swStep s o = .ok (.ret s' v) ∧ SwInv s'.out ∧ s'.stack = s.stack ∧ own s' = m ∧
        ∀ r i, (contents s'.out).foldl told r i =
          if i = o.target ∧ m i = some true ∧ o.decides then true
          else if i = o.target ∧ o.tellsLeave then false
          else (contents s.out).foldl told r i := by
  cases o with
  | create i =>
    simp only [SwOp.target] at hid
    have hu : u16 (i : Int) = i := u16_of_lt (by omega)
    simp only [specStep, own_eq]
    cases hg : FMap.get s.swarms i with
    | none =>
      refine ⟨{ s with swarms := FMap.set s.swarms i 0 }, some i, by simp [swStep, create, hu, hg], w, rfl, ?_, ?_⟩
      · funext j
        simp only [own_eq, FMap.get_set, Option.map_none]
        by_cases hj : j = i
        · simp [Own.set, hj]
        · simp [Own.set, hj, own_eq]
      · intro r j; simp [SwOp.tellsLeave, SwOp.decides]
    | some x =>
      refine ⟨s, some i, by simp [swStep, create, hu, hg], w, rfl, ?_, ?_⟩
      · rfl
      · intro r j; simp [SwOp.tellsLeave, SwOp.decides]
  | join id =>
    simp only [specStep]
    rw [own_eq]
    cases hg : FMap.get s.swarms id with
    | none => simp [swStep, join, hg]
    | some x =>
      obtain ⟨s', h1, h2, h3, h4, h5⟩ := store_spec w id 1 (some .join) hid
      refine ⟨s', none, by simp [swStep, join, hg, h1], h2, h3, by simpa using h4, ?_⟩
      intro r i
      rw [h5]
      by_cases hi : i = id <;> simp [SwOp.target, SwOp.tellsLeave, SwOp.decides, Own.set, hi]
  | leave id =>
    simp only [specStep]
    rw [own_eq]
    cases hg : FMap.get s.swarms id with
    | none => simp [swStep, leave, hg]
    | some x =>
      obtain ⟨s', h1, h2, h3, h4, h5⟩ := store_spec w id 0 (some .leave) hid
      refine ⟨s', none, by simp [swStep, leave, hg, h1], h2, h3, by simpa using h4, ?_⟩
      intro r i
      rw [h5]
      by_cases hi : i = id <;> simp [SwOp.target, SwOp.tellsLeave, SwOp.decides, Own.set, hi]
  | select id c =>
    simp only [specStep]
    rw [own_eq]
    cases hg : FMap.get s.swarms id with
    | none => simp [swStep, select, hg]
    | some x =>
      obtain ⟨s', h1, h2, h3, h4, h5⟩ := store_spec w id (u8 c) (some (if u8 c ≠ 0 then .join else .leave)) hid
      have hc : decide (u8 c ≠ 0) = decide (c % 256 ≠ 0) := by
        apply decide_eq_decide.mpr; unfold u8; omega
      rw [hc] at h4
      refine ⟨s', none, by simp only [swStep, select, hg, h1]; rfl, h2, h3, h4, ?_⟩
      intro r i
      rw [h5]
      by_cases hi : i = id
      · have : c % 256 = 0 ↔ u8 c = 0 := by unfold u8; omega
        by_cases h0 : u8 c = 0 <;> simp [SwOp.target, SwOp.tellsLeave, SwOp.decides, Own.set, hi, h0, this]
      · simp [SwOp.target, hi]
  | others id1 i2 =>
    simp only [SwOp.target] at hid
    have hu : u16 (i2 : Int) = i2 := u16_of_lt (by omega)
    simp only [specStep]
    rw [own_eq]
    cases hg : FMap.get s.swarms id1 with
    | none => simp [swStep, others, hg]
    | some x =>
      by_cases hx : x = 0
      · obtain ⟨s', h1, h2, h3, h4, h5⟩ := store_spec w i2 1 (some .join) hid
        refine ⟨s', _, by simp [swStep, others, hg, hu, h1, hx]; rfl, h2, h3, by simpa [hx] using h4, ?_⟩
        intro r i
        rw [h5]
        by_cases hi : i = i2 <;> simp [SwOp.target, SwOp.tellsLeave, SwOp.decides, Own.set, hi, hx]
      · obtain ⟨s', h1, h2, h3, h4, h5⟩ := store_spec w i2 0 none hid
        refine ⟨s', _, by simp [swStep, others, hg, hu, h1, hx]; rfl, h2, h3, by simpa [hx] using h4, ?_⟩
        intro r i
        rw [h5]
        by_cases hi : i = i2 <;> simp [SwOp.target, SwOp.tellsLeave, SwOp.decides, Own.set, hi, hx]
  | setOp o i id1 id2 =>
    simp only [SwOp.target] at hid
    have hu : u16 (i : Int) = i := u16_of_lt (by omega)
    have hspec : specStep (own s) (.setOp o i id1 id2) = some ((own s).set i (o.cond (check s id1) (check s id2))) := by
      rw [check_own, check_own]
      cases o <;> rfl
    rw [hspec]
    simp only
    cases hv : o.cond (check s id1) (check s id2) with
    | true =>
      obtain ⟨s', h1, h2, h3, h4, h5⟩ := store_spec w i 1 (some .join) hid
      refine ⟨s', some i, by simp [swStep, setOp, hu, hv, h1], h2, h3, by simpa using h4, ?_⟩
      intro r j
      rw [h5]
      by_cases hi : j = i <;> simp [SwOp.target, SwOp.tellsLeave, SwOp.decides, Own.set, hi]
    | false =>
      obtain ⟨s', h1, h2, h3, h4, h5⟩ := store_spec w i 0 none hid
      refine ⟨s', some i, by simp [swStep, setOp, hu, hv, h1], h2, h3, by simpa using h4, ?_⟩
      intro r j
      rw [h5]
      by_cases hi : j = i <;> simp [SwOp.target, SwOp.tellsLeave, SwOp.decides, Own.set, hi]

/-- Run operations until one is an error; `none` for an error. -/
def swRun (s : St B K D) : List SwOp → Res (Option (St B K D))
  | [] => .ok (some s)
  | o :: os => do
    let r ← swStep s o
    match r with
    | .ret s' _ => swRun s' os
    | .error => pure none

/-- The specification of a run. -/
def specRun (m : Own) : List SwOp → Option Own
  | [] => some m
  | o :: os => (specStep m o).bind fun m => specRun m os

/-- **C29** for all sequences: from a robot that knows no swarm, the run of the code fails exactly when the specification fails, never
by undefined behaviour, and otherwise `in()` gives the specified answer for every swarm. -/
theorem C29_runs (os : List SwOp) (hid : ∀ o ∈ os, o.target < 65535) :
    ∃ r, swRun (⟨[], [], new⟩ : St B K D) os = .ok r ∧ r.map own = specRun (fun _ => none) os := by
  suffices h : ∀ (s : St B K D), SwInv s.out → ∃ r, swRun s os = .ok r ∧ r.map own = specRun (own s) os by
    have := h ⟨[], [], new⟩ swInv_new
    have h0 : own (⟨[], [], new⟩ : St B K D) = fun _ => none := by funext i; rfl
    rwa [h0] at this
  induction os with
  | nil => intro s _; exact ⟨some s, rfl, rfl⟩
  | cons o os ih =>
    intro s w
    have h := C29_step w o (hid o (List.mem_cons_self ..))
    unfold specRun
    cases hsp : specStep (own s) o with
    | none =>
      rw [hsp] at h
      exact ⟨none, by simp [swRun, h], rfl⟩
    | some m =>
      rw [hsp] at h
      obtain ⟨s', v, h1, h2, _, h4, _⟩ := h
      obtain ⟨r, h5, h6⟩ := ih (fun x hx => hid x (List.mem_cons_of_mem _ hx)) s' h2
      refine ⟨r, by simp [swRun, h1, h5], ?_⟩
      rw [h6, h4]; rfl

/-- C29 is not vacuous: a run that uses every operation. -/
example : (specRun (fun _ => none) [.create 1, .create 2, .join 1, .others 1 3, .setOp .union 4 2 1, .setOp .difference 5 1 2,
    .setOp .intersection 6 1 2, .select 2 5, .leave 1]).map (fun m => [m 1, m 2, m 3, m 4, m 5, m 6, m 7]) =
    some [some false, some true, some false, some true, some true, some false, none] := by decide

/-- **C29** deviation: `select(256)` is a truthy condition in Buzz, but the code keeps 8 bits: the robot leaves. -/
theorem C29_select_truncates : ∃ s : St Nat Nat Nat,
    select (⟨[(1, 0)], [], new⟩ : St Nat Nat Nat) 1 256 = .ok (.ret s none) ∧ own s 1 = some false := by
  exact ⟨_, rfl, by decide⟩

/-- **C29** deviation: the union of two swarms never created is no error. -/
theorem C29_setop_unknown : ∃ s : St Nat Nat Nat,
    setOp (⟨[], [], new⟩ : St Nat Nat Nat) .union 3 1 2 = .ok (.ret s (some 3)) ∧ own s 3 = some false :=
  ⟨_, rfl, by decide⟩

/-- **C29** deviation: `others` can take the robot out of a swarm it had announced without queueing anything, so a receiver of all
messages still believes the robot is in it (until the next periodic list). -/
theorem C29_others_silent : ∃ s1 s2 : St Nat Nat Nat, ∃ v w,
    join (⟨[(1, 1), (2, 0)], [], new⟩ : St Nat Nat Nat) 2 = .ok (.ret s1 v) ∧
    others s1 1 2 = .ok (.ret s2 w) ∧ own s2 2 = some false ∧
    (contents s2.out).foldl told (fun _ => false) 2 = true :=
  ⟨_, _, _, _, rfl, rfl, by decide, by decide⟩

/-- **C29** deviation: `swarm.id` with position 0 reads past the swarm stack. -/
theorem C29_id_zero (s : St B K D) (h : s.stack ≠ []) : Swarm.swarmId s (some 0) = .ub := by
  have : s.stack.isEmpty = false := by simpa using h
  simp [Swarm.swarmId, this, u16]

/-- `swarm.id()` is the id of the innermost swarm, or nil; positions count from the top and stop at the bottom. -/
theorem C29_id (s : St B K D) (p : Nat) (h0 : 0 < p) (h1 : p < 65536) :
    Swarm.swarmId s (some p) = .ok (match s.stack.take p |>.getLast? with | some i => some (i : Int) | none => none) := by
  unfold Swarm.swarmId
  have hu : u16 (p : Int) = p := u16_of_lt h1
  cases hs : s.stack with
  | nil => simp
  | cons a l =>
    simp only [List.isEmpty_cons, hu]
    have key : ∀ q, q = (if p > (a :: l).length then (a :: l).length else p) → q ≠ 0 ∧ (a :: l)[q - 1]? = ((a :: l).take p).getLast? := by
      rintro q rfl
      constructor
      · split <;> simp_all; omega
      · rw [List.getLast?_eq_getElem?, List.length_take]
        split
        · rw [Nat.min_eq_right (by omega), List.take_of_length_le (by omega)]
        · rw [Nat.min_eq_left (by omega), List.getElem?_take, if_pos (by omega)]
    obtain ⟨hq, he⟩ := key _ rfl
    simp only [Bool.false_eq_true, if_false]
    rw [if_neg hq, he]
    cases hl : ((a :: l).take p).getLast? with
    | none =>
      rw [List.getLast?_eq_none_iff] at hl
      cases p with
      | zero => omega
      | succ p => simp at hl
    | some i => rfl

/-! ## C54 -/

/-- **C54** join and leave messages: the payload queued by the sender is understood as sent. -/
theorem C54_joinleave (m : Members) (rid id : Nat) (hid : id < 65536) :
    handle m rid (paySwarm .join id) = .ok (newsStep m (.join rid id)) ∧
    handle m rid (paySwarm .leave id) = .ok (newsStep m (.leave rid id)) := by
  have h1 := deser16_ser id hid (ser8 4) []
  have h2 := deser16_ser id hid (ser8 5) []
  rw [List.append_nil] at h1 h2
  have r1 : rd (ser8 4 ++ ser16 .little id) 0 = .ok 4 := rfl
  have r2 : rd (ser8 5 ++ ser16 .little id) 0 = .ok 5 := rfl
  have l4 : (ser8 4).length = 1 := rfl
  have l5 : (ser8 5).length = 1 := rfl
  rw [l4] at h1; rw [l5] at h2
  constructor
  · simp only [handle, paySwarm, r1, h1, Res.ok_bind, Res.pure_eq, newsStep]
  · simp only [handle, paySwarm, r2, h2, Res.ok_bind, Res.pure_eq, newsStep]

theorem readIds_ser : ∀ (ids : List Nat), (∀ i ∈ ids, i < 65536) → ∀ (pre post : Bytes),
    readIds (pre ++ ids.flatMap (ser16 .little) ++ post) ids.length pre.length = .ok ids
  | [], _, _, _ => rfl
  | i :: ids, h, pre, post => by
    have h1 := deser16_ser i (h i (List.mem_cons_self ..)) pre (ids.flatMap (ser16 .little) ++ post)
    have h2 := readIds_ser ids (fun x hx => h x (List.mem_cons_of_mem _ hx)) (pre ++ ser16 .little i) post
    have e : pre ++ (i :: ids).flatMap (ser16 .little) ++ post =
        pre ++ ser16 .little i ++ (ids.flatMap (ser16 .little) ++ post) := by simp
    have e2 : (pre ++ ser16 .little i).length = pre.length + 2 := by simp [ser16_length]
    have e3 : pre ++ ser16 .little i ++ ids.flatMap (ser16 .little) ++ post =
        pre ++ ser16 .little i ++ (ids.flatMap (ser16 .little) ++ post) := by simp
    rw [e2, e3] at h2
    simp only [readIds, List.length_cons]
    rw [e, h1]
    simp only [Res.ok_bind, h2, Res.pure_eq]

/-- **C54** list messages: a list of 1 to 65535 swarms is understood as sent. -/
theorem C54_list (m : Members) (rid : Nat) (ids : List Nat) (hne : ids ≠ []) (hl : ids.length < 65536)
    (hid : ∀ i ∈ ids, i < 65536) : handle m rid (payList ids) = .ok (newsStep m (.list rid ids)) := by
  have hm : ids.length % U16 = ids.length := Nat.mod_eq_of_lt hl
  have hp : payList ids = ser8 1 ++ ser16 .little ids.length ++ ids.flatMap (ser16 .little) := by
    simp [payList, hm]
  have h1 := deser16_ser ids.length hl (ser8 1) (ids.flatMap (ser16 .little))
  have h2 := readIds_ser ids hid (ser8 1 ++ ser16 .little ids.length) []
  rw [List.append_nil] at h2
  have e1 : (ser8 1).length = 1 := rfl
  have e2 : (ser8 1 ++ ser16 .little ids.length).length = 3 := by simp [ser16_length, e1]
  rw [e1] at h1; rw [e2] at h2
  have h0 : rd (ser8 1 ++ ser16 .little ids.length ++ ids.flatMap (ser16 .little)) 0 = .ok 1 := rfl
  have hpos : ¬ ids.length < 1 := by
    cases ids with
    | nil => exact absurd rfl hne
    | cons a l => simp
  rw [hp]
  unfold handle
  rw [h0, Res.ok_bind, h1, Res.ok_bind]
  simp only [Nat.reduceAdd, if_neg hpos]
  rw [h2]
  rfl

set_option maxRecDepth 10000 in
/-- **C54** an empty list, which a robot sends when it has left its last swarm, tells the receiver nothing. -/
theorem C54_empty_list_ignored (m : Members) (rid : Nat) : handle m rid (payList []) = .ok m := rfl

theorem readIds_total (buf : Bytes) : ∀ n pos, ∃ l, readIds buf n pos = .ok l
  | 0, _ => ⟨[], rfl⟩
  | n + 1, pos => by
    rcases deser16_total .little buf pos with ⟨_, h⟩ | ⟨_, v, _, h⟩
    · exact ⟨[0], by simp [readIds, h]⟩
    · obtain ⟨l, hl⟩ := readIds_total buf n (pos + 2)
      exact ⟨v :: l, by simp [readIds, h, hl]⟩

/-- **C54** whatever the bytes, a non-empty payload has a defined effect. -/
theorem C54_total (m : Members) (rid : Nat) (buf : Bytes) (h : buf ≠ []) : ∃ m', handle m rid buf = .ok m' := by
  obtain ⟨t, _, h0⟩ := rd_ok buf 0 (List.length_pos_iff.mpr h)
  unfold handle
  rw [h0, Res.ok_bind]
  rcases deser16_total .little buf 1 with ⟨_, h1⟩ | ⟨_, v, _, h1⟩
  · exact ⟨m, by simp [h1]⟩
  · rw [h1, Res.ok_bind]
    simp only
    split
    · split
      · exact ⟨m, rfl⟩
      · obtain ⟨l, hl⟩ := readIds_total buf v (1 + 2)
        exact ⟨_, by rw [hl]; rfl⟩
    · exact ⟨_, rfl⟩
    · exact ⟨_, rfl⟩
    · exact ⟨_, rfl⟩

set_option maxRecDepth 10000 in
/-- **C54** deviation: a list cut short makes the receiver believe the sender is in swarm 0. -/
theorem C54_truncated_list_claims_zero :
    (handle [] 9 ((payList [7, 8]).take 5)).bind (fun m => .ok (isIn m 9 0, isIn m 9 7, isIn m 9 8)) = .ok (true, true, false) := by
  decide

end Buzz.Props
