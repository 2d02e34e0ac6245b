import Verif.Props.Swarms

/-
C76, the specification: what a robot's life with swarms makes of its swarms, of what waits to be sent about them and of what a listener knows.
-/
namespace Buzz.VM

open Buzz.Props Buzz.Swarm

/-- A swarm message. -/
inductive SwMsg where
  | list (ids : List Nat)
  | join (id : Nat)
  | leave (id : Nat)
  deriving DecidableEq, Repr

/-- What can happen: an operation of the swarm API, an answer of `in()`, the end of a control step (`buzzvm_process_outmsgs`), a message sent, a message received (or
the ageing that follows reception). -/
inductive SwAct where
  | op (o : SwOp)
  | ask (id x : Nat)
  | tick
  | sent (m : SwMsg)
  | heard (e : News)

/-- What the robot is in (`none` for unknown swarms); whether it knows any swarm; what the messages that wait say about each swarm; whether a list waits; the control
steps until the next list. -/
structure Tale where
  own : Own
  any : Bool
  tells : Nat → Option Bool
  list : Bool
  count : Nat

/-- A new robot. -/
def Tale.start : Tale := ⟨fun _ => none, false, fun _ => none, false, 10⟩

/-- What waits after an operation that left the memberships `m`. -/
def announce (o : SwOp) (m : Own) (tells : Nat → Option Bool) : Nat → Option Bool := fun i =>
  if i = o.target ∧ m i = some true ∧ o.decides then some true
  else if i = o.target ∧ o.tellsLeave then some false
  else tells i

/-- What an event makes of it. -/
def Tale.next (t : Tale) : SwAct → Tale
  | .op o =>
    match specStep t.own o with
    | none => t
    | some m => { t with own := m, any := true, tells := announce o m t.tells }
  | .ask _ _ => t
  | .tick =>
    if t.count ≤ 1 ∧ t.any = true then { t with list := true, tells := fun i => some (t.own i == some true), count := 10 }
    else { t with count := t.count - 1 }
  | .sent (.list _) => { t with list := false, tells := fun _ => none }
  | .sent (.join id) => { t with tells := fun i => if i = id then none else t.tells i }
  | .sent (.leave id) => { t with tells := fun i => if i = id then none else t.tells i }
  | .heard _ => t

/-- What can be seen: operations on unknown swarms fail, `in()` answers what the robot is in, a list has the swarms it says the robot is in, joins go out when no
list waits, leaves when also no join waits. -/
def Tale.Sees (t : Tale) : SwAct → Prop
  | .op o => (specStep t.own o).isSome
  | .ask id x => t.own id = some (decide (x ≠ 0))
  | .tick => True
  | .sent (.list ids) => t.list = true ∧ ids.Nodup ∧ ∀ i, i ∈ ids ↔ t.tells i = some true
  | .sent (.join id) => t.list = false ∧ t.tells id = some true
  | .sent (.leave id) => t.list = false ∧ t.tells id = some false ∧ ∀ i, t.tells i ≠ some true
  | .heard _ => True

/-- The events lead from one to the other and each was as it had to be. -/
def Tale.Goes (t : Tale) : List SwAct → Tale → Prop
  | [], t' => t' = t
  | a :: l, t' => t.Sees a ∧ (t.next a).Goes l t'

/-- What a listener makes of a message. -/
def hears (view : Nat → Bool) : SwMsg → Nat → Bool
  | .list ids => fun i => decide (i ∈ ids)
  | .join id => fun i => if i = id then true else view i
  | .leave id => fun i => if i = id then false else view i

/-- The messages sent. -/
def sentBy (l : List SwAct) : List SwMsg := l.filterMap fun | .sent m => some m | _ => none

/-- What was received. -/
def heardBy (l : List SwAct) : List News := l.filterMap fun | .heard e => some e | _ => none

/-- The messages from robot `r`. -/
def from_ (r : Nat) (h : List News) : List SwMsg := h.filterMap fun
  | .join r' s => if r' = r then some (.join s) else none
  | .leave r' s => if r' = r then some (.leave s) else none
  | .list r' ids => if r' = r then some (.list ids) else none
  | .tick => none

/-- No departure from swarm `i` without a message: `others` and the set operations do not take the robot out of it. -/
def Tale.Open (i : Nat) (t : Tale) : List SwAct → Prop
  | [] => True
  | a :: l => (∀ o, a = .op o → o.target = i → o.tellsLeave = false → t.own i = some true → (t.next a).own i = some true) ∧ (t.next a).Open i l

/-- Robot `r` is never silent for more than 50 updates after a message. -/
def Steady (r : Nat) (h : List News) : Prop :=
  ∀ h1 e h2 h3, h = h1 ++ e :: (h2 ++ h3) → e.from = some r → (∀ x ∈ h2, x.from ≠ some r) → h2.count .tick ≤ 50

/-! ### What a listener knows -/

/-- What a listener with the view `v` will know when it has heard what waits. -/
def Tale.told (t : Tale) (v : Nat → Bool) (i : Nat) : Bool := (t.tells i).getD (v i)

/-- A waiting list speaks of every swarm. -/
def Tale.Full (t : Tale) : Prop := t.list = true → ∀ i, t.tells i ≠ none

theorem Tale.full_start : Tale.start.Full := by intro h; cases h

theorem Tale.Full.next {t : Tale} (f : t.Full) (a : SwAct) (h : t.Sees a) : (t.next a).Full := by
  cases a with
  | op o =>
    simp only [Tale.next]
    cases specStep t.own o with
    | none => exact f
    | some m =>
      intro hl i
      simp only [announce]
      split
      · simp
      · split
        · simp
        · exact f hl i
  | ask _ _ => exact f
  | tick =>
    simp only [Tale.next]
    split
    · intro _ i; simp
    · exact f
  | sent m =>
    cases m with
    | list ids => intro hl; cases hl
    | join id => intro hl; rw [show (t.next (.sent (.join id))).list = t.list from rfl, h.1] at hl; cases hl
    | leave id => intro hl; rw [show (t.next (.sent (.leave id))).list = t.list from rfl, h.1] at hl; cases hl
  | heard _ => exact f

/-- Sending changes only who has heard it. -/
theorem told_sent {t : Tale} (f : t.Full) {m : SwMsg} (h : t.Sees (.sent m)) (v : Nat → Bool) (i : Nat) : (t.next (.sent m)).told (hears v m) i = t.told v i := by
  cases m with
  | list ids =>
    obtain ⟨h1, _, h3⟩ := h
    simp only [Tale.told, Tale.next, hears, Option.getD_none]
    cases hs : t.tells i with
    | none => exact absurd hs (f h1 i)
    | some b => cases b <;> simp [h3, hs]
  | join id =>
    simp only [Tale.told, Tale.next, hears]
    by_cases hi : i = id
    · subst hi; simp [h.2]
    · simp [hi]
  | leave id =>
    simp only [Tale.told, Tale.next, hears]
    by_cases hi : i = id
    · subst hi; simp [h.2.1]
    · simp [hi]

theorem sentBy_cons (a : SwAct) (l : List SwAct) : sentBy (a :: l) = (match a with | .sent m => [m] | _ => []) ++ sentBy l := by
  cases a <;> rfl

/-- One event, for a listener that hears everything. -/
theorem told_next {t : Tale} (f : t.Full) {a : SwAct} (h : t.Sees a) (v : Nat → Bool) (i : Nat) :
    (t.next a).told ((sentBy [a]).foldl hears v) i =
      match a with
      | .op o => announce o ((t.next a).own) (fun i => some (t.told v i)) i == some true
      | .tick => if t.count ≤ 1 ∧ t.any = true then t.own i == some true else t.told v i
      | _ => t.told v i := by
  cases a with
  | op o =>
    simp only [sentBy, List.filterMap_cons, List.filterMap_nil, List.foldl_nil]
    obtain ⟨m, hm⟩ := Option.isSome_iff_exists.mp h
    simp only [Tale.next, hm, Tale.told, announce]
    split
    · rfl
    · split
      · rfl
      · simp
  | ask _ _ => rfl
  | tick =>
    simp only [sentBy, List.filterMap_cons, List.filterMap_nil, List.foldl_nil, Tale.next]
    split <;> rfl
  | sent m => exact told_sent f h v i
  | heard _ => rfl

theorem own_next {t : Tale} (a : SwAct) : (t.next a).own = match a with | .op o => (specStep t.own o).getD t.own | _ => t.own := by
  cases a with
  | op o => simp only [Tale.next]; cases specStep t.own o <;> rfl
  | ask _ _ => rfl
  | tick => simp only [Tale.next]; split <;> rfl
  | sent m => cases m <;> rfl
  | heard _ => rfl

/-- An operation changes the membership of its swarm only. -/
theorem spec_target {m m' : Own} {o : SwOp} (h : specStep m o = some m') {i : Nat} (hi : i ≠ o.target) : m' i = m i := by
  cases o with
  | create j =>
    simp only [specStep, Option.some.injEq] at h
    subst h
    simp only [SwOp.target] at hi
    cases m j with
    | some _ => rfl
    | none => simp [Own.set, hi]
  | setOp o j a b =>
    simp only [SwOp.target] at hi
    cases o <;> simp only [specStep, Option.some.injEq] at h <;> subst h <;> simp [Own.set, hi]
  | _ =>
    simp only [SwOp.target] at hi
    simp only [specStep, Option.map_eq_some_iff] at h
    obtain ⟨_, _, rfl⟩ := h
    simp [Own.set, hi]

/-- `create` makes nobody a member and takes nobody out. -/
theorem spec_create {m m' : Own} {j : Nat} (h : specStep m (.create j) = some m') (i : Nat) : (m' i == some true) = (m i == some true) := by
  simp only [specStep, Option.some.injEq] at h
  subst h
  cases hn : m j with
  | some _ => rfl
  | none =>
    simp only [Own.set]
    split
    · rename_i hi; subst hi; simp [hn]
    · rfl

/-- Those that tell a departure tell the truth. -/
theorem spec_decides {o : SwOp} (h : o.decides = false) : ∃ j, o = .create j := by
  cases o with
  | create j => exact ⟨j, rfl⟩
  | _ => cases h

/-- A listener that hears everything never believes a member to be outside. -/
theorem members_told : ∀ (l : List SwAct) {t t' : Tale} {v : Nat → Bool}, t.Full → t.Goes l t' → (∀ i, t.own i = some true → t.told v i = true) →
    ∀ i, t'.own i = some true → t'.told ((sentBy l).foldl hears v) i = true
  | [], t, t', v, _, g, h, i, hi => by
    cases g; exact h i hi
  | a :: l, t, t', v, f, g, h, i, hi => by
    have := members_told l (v := (sentBy [a]).foldl hears v) (f.next a g.1) g.2 (by
      intro j hj
      rw [told_next f g.1]
      rw [own_next] at hj
      cases a with
      | op o =>
        obtain ⟨m, hm⟩ := Option.isSome_iff_exists.mp g.1
        simp only [hm, Option.getD_some] at hj
        have e : (t.next (.op o)).own = m := by rw [own_next]; simp [hm]
        simp only [e, announce]
        by_cases hjt : j = o.target
        · cases hd : o.decides with
          | true => rw [if_pos ⟨hjt, hj, rfl⟩]; rfl
          | false =>
            obtain ⟨k, rfl⟩ := spec_decides hd
            have h2 := spec_create hm j
            rw [hj] at h2
            have := h j (by simpa using h2.symm)
            simp [SwOp.tellsLeave, this]
        · rw [spec_target hm hjt] at hj
          simp [hjt, h j hj]
      | tick =>
        simp only at hj ⊢
        split
        · simp [hj]
        · exact h j hj
      | ask _ _ => exact h j hj
      | sent m => exact h j hj
      | heard e => exact h j hj) i hi
    rw [sentBy_cons, List.foldl_append]
    cases a <;> exact this

/-- A listener that hears everything believes what is true of a swarm nobody leaves in silence. -/
theorem truth_told : ∀ (l : List SwAct) {t t' : Tale} {v : Nat → Bool} {i : Nat}, t.Full → t.Goes l t' → t.Open i l → t.told v i = (t.own i == some true) →
    t'.told ((sentBy l).foldl hears v) i = (t'.own i == some true)
  | [], t, t', v, i, _, g, _, h => by
    cases g; exact h
  | a :: l, t, t', v, i, f, g, o, h => by
    have := truth_told l (v := (sentBy [a]).foldl hears v) (i := i) (f.next a g.1) g.2 o.2 (by
      rw [told_next f g.1]
      cases a with
      | op o' =>
        obtain ⟨m, hm⟩ := Option.isSome_iff_exists.mp g.1
        have e : (t.next (.op o')).own = m := by rw [own_next]; simp [hm]
        have ho := o.1 o' rfl
        rw [e] at ho
        simp only [e, announce]
        by_cases hi : i = o'.target
        · cases hd : o'.decides with
          | false =>
            obtain ⟨k, rfl⟩ := spec_decides hd
            simp [SwOp.tellsLeave, h, spec_create hm i]
          | true =>
            by_cases hm' : m i = some true
            · rw [if_pos ⟨hi, hm', rfl⟩, hm']
            · cases ht : o'.tellsLeave with
              | true => rw [if_neg (fun h => hm' h.2.1), if_pos ⟨hi, rfl⟩]; simp [hm']
              | false =>
                have hn : ¬ t.own i = some true := fun h' => hm' (ho hi.symm ht h')
                simp [hm', h, hn]
        · rw [spec_target hm hi]
          simp [hi, h]
      | tick =>
        simp only [own_next]
        split
        · rfl
        · exact h
      | ask _ _ => exact h
      | sent m => rw [own_next]; exact h
      | heard e => exact h)
    rw [sentBy_cons, List.foldl_append]
    cases a <;> exact this

/-! ### Receiving -/

theorem Steady.left {r : Nat} {h g : List News} (s : Steady r (h ++ g)) : Steady r h := by
  intro h1 e h2 h3 hh he hn
  exact s h1 e h2 (h3 ++ g) (by rw [hh]; simp) he hn

theorem from_none {r : Nat} {h : List News} (hn : ∀ e ∈ h, e.from ≠ some r) (s : Nat) : from_ r h = [] ∧ ∀ n, believed r s h.reverse n = false := by
  constructor
  · unfold from_
    rw [List.filterMap_eq_nil_iff]
    intro e he
    have := hn e he
    cases e <;> simp [News.from] at this ⊢ <;> exact this
  · have : ∀ (h : List News), (∀ e ∈ h, e.from ≠ some r) → ∀ n, believed r s h n = false := by
      intro h
      induction h with
      | nil => intro _ n; rfl
      | cons e h ih =>
        intro hn n
        have ih := ih (fun x hx => hn x (List.mem_cons_of_mem _ hx))
        have he := hn e (List.mem_cons_self ..)
        have hs : e.says r s = none := by
          cases e <;> simp [News.from] at he <;> simp [News.says, he]
        simp only [believed, hs, if_neg he, ih]
        split <;> simp
    exact this _ (fun e he => hn e (List.mem_reverse.mp he))

theorem believed_steady {r : Nat} (s : Nat) : ∀ (h g : List News), (∀ e ∈ g, e.from ≠ some r) → Steady r (h ++ g) →
    believed r s h.reverse (g.count .tick) = (from_ r h).foldl hears (fun _ => false) s := by
  intro h
  induction h using List.reverseRecOn with
  | nil => intro g _ _; rfl
  | append_singleton h e ih =>
    intro g hg st
    rw [List.reverse_append, List.reverse_singleton, List.singleton_append]
    have hf : from_ r (h ++ [e]) = from_ r h ++ from_ r [e] := by unfold from_; rw [List.filterMap_append]
    rw [hf, List.foldl_append]
    have st' : Steady r (h ++ (e :: g)) := by simpa using st
    by_cases he : e.from = some r
    · have ih0 := ih [] (by simp) (by rw [List.append_nil]; exact st'.left)
      simp only [List.count_nil] at ih0
      cases e with
      | join r' s' =>
        simp only [News.from, Option.some.injEq] at he
        subst he
        by_cases hs : s' = s
        · simp [believed, News.says, from_, hears, hs]
        · have hs' : ¬ s = s' := fun h => hs h.symm
          simp [believed, News.says, News.from, from_, hears, hs, hs', ih0]
      | leave r' s' =>
        simp only [News.from, Option.some.injEq] at he
        subst he
        by_cases hs : s' = s
        · simp [believed, News.says, from_, hears, hs]
        · have hs' : ¬ s = s' := fun h => hs h.symm
          simp [believed, News.says, News.from, from_, hears, hs, hs', ih0]
      | list r' ids =>
        simp only [News.from, Option.some.injEq] at he
        subst he
        simp [believed, News.says, from_, hears]
      | tick => cases he
    · have hfe : from_ r [e] = [] := (from_none (by intro x hx; cases List.mem_singleton.mp hx; exact he) s).1
      rw [hfe, List.foldl_nil]
      by_cases ht : e = .tick
      · subst ht
        have hb : believed r s (.tick :: h.reverse) (g.count .tick) = if g.count .tick = 50 then false else believed r s h.reverse (g.count .tick + 1) := rfl
        rw [hb]
        have ih1 := ih (.tick :: g) (by
          intro x hx
          rcases List.mem_cons.mp hx with rfl | hx
          · exact he
          · exact hg x hx) st'
        rw [List.count_cons_self] at ih1
        split
        · rename_i h50
          by_cases hex : ∃ x ∈ h, x.from = some r
          · exfalso
            -- the last message
            obtain ⟨h1, x, h2, hh, hx, hn⟩ : ∃ h1 x h2, h = h1 ++ x :: h2 ∧ x.from = some r ∧ ∀ y ∈ h2, y.from ≠ some r := by
              clear ih st st' ih1 hb hf
              induction h using List.reverseRecOn with
              | nil => obtain ⟨x, hx, _⟩ := hex; cases hx
              | append_singleton h z ihz =>
                by_cases hz : z.from = some r
                · exact ⟨h, z, [], rfl, hz, by simp⟩
                · obtain ⟨x, hx, hxr⟩ := hex
                  have : x ∈ h := by
                    rcases List.mem_append.mp hx with h | h
                    · exact h
                    · cases List.mem_singleton.mp h; exact absurd hxr hz
                  obtain ⟨h1, y, h2, e1, e2, e3⟩ := ihz ⟨x, this, hxr⟩
                  refine ⟨h1, y, h2 ++ [z], by rw [e1]; simp, e2, ?_⟩
                  intro w hw
                  rcases List.mem_append.mp hw with h | h
                  · exact e3 w h
                  · cases List.mem_singleton.mp h; exact hz
            have := st' h1 x (h2 ++ .tick :: g) [] (by rw [hh]; simp) hx (by
              intro y hy
              rcases List.mem_append.mp hy with hy | hy
              · exact hn y hy
              · rcases List.mem_cons.mp hy with rfl | hy
                · exact he
                · exact hg y hy)
            rw [List.count_append, List.count_cons_self] at this
            omega
          · have hn : ∀ x ∈ h, x.from ≠ some r := fun x hx hxr => hex ⟨x, hx, hxr⟩
            rw [(from_none hn s).1]
            rfl
        · exact ih1
      · rw [believed_other he ht]
        have ih1 := ih (e :: g) (by
          intro x hx
          rcases List.mem_cons.mp hx with rfl | hx
          · exact he
          · exact hg x hx) st'
        rw [List.count_cons_of_ne ht] at ih1
        exact ih1

/-- Of a robot that is not silent for long, a robot believes what its messages say. -/
theorem listens (h : List News) (hf : ∀ e ∈ h, e.Fine) {r : Nat} (st : Steady r h) (s : Nat) :
    isIn (h.foldl newsStep []) r s = (from_ r h).foldl hears (fun _ => false) s := by
  rw [C28_membership_follows_news h hf]
  exact believed_steady s h [] (by simp) (by rw [List.append_nil]; exact st)

end Buzz.VM
