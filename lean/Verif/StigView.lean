import Verif.StigRun

/-
What a robot holds under a key of a stigmergy, told by what has happened to it.
-/
namespace Buzz.VM

open Buzz.F32 Buzz.Msg Buzz.Heap Buzz.Props Buzz.HeapWire Buzz.OutMsg Buzz.Vstig Buzz.Value

variable {me base : Nat} {s s' : Vstig.St Unit Obj Obj} {kd : Kind} {E : Env}

/-- A value without the number its string has in the machine's table. -/
def bare : Obj → Obj
  | .str _ x => .str 0 x
  | o => o

def bareElem (e : Elem Obj) : Elem Obj := ⟨bare e.data, e.ts, e.robot⟩

/-- What is known of one key: whether the stigmergy exists, the entry, and the message about the key that waits to be sent. -/
@[ext] structure View where
  known : Bool
  entry : Option (Elem Obj)
  waiting : Option (VType × Elem Obj)

def View.bare (x : View) : View := ⟨x.known, x.entry.map bareElem, x.waiting.map (fun y => (y.1, bareElem y.2))⟩

/-- The more recent of two entries: by timestamp; with the same timestamp, from different robots, a value before nil, then the robot with the larger
number. -/
def newer (l v : Elem Obj) : Elem Obj :=
  if l.ts < v.ts then v
  else if v.ts < l.ts ∨ l.robot = v.robot then l
  else if l.data ≠ .nil ∧ v.data = .nil then l
  else if l.data = .nil ∧ v.data ≠ .nil then v
  else if v.robot < l.robot then l else v

/-- A message takes the place of an older one. -/
def offer (t : VType) (e : Elem Obj) : Option (VType × Elem Obj) → Option (VType × Elem Obj)
  | none => some (t, e)
  | some y => if y.2.ts < e.ts then some (t, e) else some y

/-- The robot puts a value: the timestamp is the next one, the others are told. -/
def View.write (me : Nat) (v : Obj) (x : View) : View :=
  match x.entry with
  | some e => ⟨x.known, if v = .nil then none else some ⟨v, (e.ts + 1) % 65536, me⟩, offer .put ⟨v, (e.ts + 1) % 65536, me⟩ x.waiting⟩
  | none => if v = .nil then x else ⟨x.known, some ⟨v, 1, me⟩, offer .put ⟨v, 1, me⟩ x.waiting⟩

/-- The robot hears of an entry: the more recent one is kept and passed on, a query for what is not known is passed on. -/
def View.hear (t : VType) (v : Elem Obj) (x : View) : View :=
  if x.known = true then
    match x.entry with
    | none => if t = .query ∧ v.data = .nil then { x with waiting := offer .query v x.waiting } else ⟨true, some v, offer .put v x.waiting⟩
    | some l =>
      if (l.ts = v.ts ∧ l.robot = v.robot) ∨ (t = .put ∧ v.ts < l.ts) then x
      else ⟨true, some (newer l v), offer .put (newer l v) x.waiting⟩
  else if t = .query then { x with waiting := offer .query v x.waiting } else x

/-- What becomes of the view of the key `k` of the stigmergy `id` on robot `me`. -/
def View.after (me id : Nat) (k : Obj) (a : StigAct) (x : View) : View :=
  match a with
  | .create id' => if id' = id then ⟨true, none, x.waiting⟩ else x
  | .put id' k' v => if (id' = id ∧ k' = k) ∧ x.known = true then x.write me v else x
  | .get id' k' _ => if (id' = id ∧ k' = k) ∧ x.known = true then { x with waiting := offer .query (x.entry.getD ⟨.nil, 0, me⟩) x.waiting } else x
  | .size _ _ => x
  | .recv t id' k' d ts robot => if id' = id ∧ k' = k then x.hear t ⟨d, ts, robot⟩ else x
  | .sent _ id' k' _ => if id' = id ∧ k' = k then { x with waiting := none } else x

/-- Keys and values without the numbers of strings. -/
def StigAct.bare : StigAct → StigAct
  | .create id => .create id
  | .put id k v => .put id (VM.bare k) (VM.bare v)
  | .get id k v => .get id (VM.bare k) (VM.bare v)
  | .size id n => .size id n
  | .recv t id k d ts r => .recv t id (VM.bare k) (VM.bare d) ts r
  | .sent t id k e => .sent t id (VM.bare k) (bareElem e)

/-- The key an event is about. -/
def StigAct.about : StigAct → Option (Nat × Obj)
  | .put id k _ => some (id, k)
  | .get id k _ => some (id, k)
  | .recv _ id k _ _ _ => some (id, k)
  | .sent _ id k _ => some (id, k)
  | _ => none

def viewOf (s : Vstig.St Unit Obj Obj) (id : Nat) (k : Obj) : View := ⟨(FMap.get s.vstigs id).isSome, Vstig.entry s id k, waitingMsg s id k⟩

theorem newer_winner {l v : Elem Obj} (h : l.ts = v.ts ∧ l.robot ≠ v.robot) : winner .nil l v = newer l v := by
  unfold newer
  rw [if_neg (show ¬ l.ts < v.ts by omega), if_neg (show ¬ (v.ts < l.ts ∨ l.robot = v.robot) by omega)]
  unfold winner
  by_cases h3 : l.data = .nil <;> by_cases h4 : v.data = .nil <;> simp [h3, h4]

theorem bare_nil {o : Obj} : bare o = .nil ↔ o = .nil := by
  cases o <;> simp [bare]

theorem newer_bare (l v : Elem Obj) : bareElem (newer l v) = newer (bareElem l) (bareElem v) := by
  unfold newer
  simp only [bareElem, bare_nil, ne_eq]
  split
  · rfl
  split
  · rfl
  split
  · rfl
  split
  · rfl
  by_cases hr : v.robot < l.robot
  · rw [if_pos hr]; exact (if_pos hr).symm
  · rw [if_neg hr]; exact (if_neg hr).symm

theorem offer_bare (t : VType) (e : Elem Obj) (w : Option (VType × Elem Obj)) :
    (offer t e w).map (fun y => (y.1, bareElem y.2)) = offer t (bareElem e) (w.map (fun y => (y.1, bareElem y.2))) := by
  cases w with
  | none => rfl
  | some y =>
    simp only [offer, Option.map_some]
    by_cases h : y.2.ts < e.ts
    · rw [if_pos h]; exact (if_pos h).symm
    · rw [if_neg h]; exact (if_neg h).symm

theorem write_bare (v : Obj) (x : View) : (x.write me v).bare = x.bare.write me (bare v) := by
  obtain ⟨kn, en, wa⟩ := x
  unfold View.write View.bare
  simp only
  cases en with
  | none =>
    simp only [Option.map_none, bare_nil]
    split
    · rfl
    · simp only [Option.map_some, offer_bare]; rfl
  | some e =>
    simp only [Option.map_some, offer_bare, bare_nil]
    by_cases hv : v = .nil
    · simp [hv, bareElem]
    · simp [hv, bareElem]

theorem hear_bare (t : VType) (v : Elem Obj) (x : View) : (x.hear t v).bare = x.bare.hear t (bareElem v) := by
  unfold View.hear
  show _ = if x.known = true then _ else _
  by_cases hk : x.known = true
  · rw [if_pos hk, if_pos hk]
    cases he : x.entry with
    | none =>
      have : x.bare.entry = none := by simp [View.bare, he]
      rw [this]
      simp only
      have hn : (t = .query ∧ v.data = .nil) ↔ (t = .query ∧ (bareElem v).data = .nil) := by simp [bareElem, bare_nil]
      by_cases hq : t = .query ∧ v.data = .nil
      · rw [if_pos hq, if_pos (hn.mp hq)]
        simp only [View.bare, offer_bare, he, Option.map_none]
      · rw [if_neg hq, if_neg (fun h => hq (hn.mpr h))]
        simp only [View.bare, offer_bare, Option.map_some]
    | some l =>
      have : x.bare.entry = some (bareElem l) := by simp [View.bare, he]
      rw [this]
      simp only
      show _ = if (l.ts = v.ts ∧ l.robot = v.robot) ∨ (t = .put ∧ v.ts < l.ts) then _ else _
      split
      · rfl
      · simp only [View.bare, offer_bare, Option.map_some, newer_bare]
  · rw [if_neg hk, if_neg hk]
    split
    · simp only [View.bare, offer_bare]
    · rfl

theorem after_bare {id : Nat} {k : Obj} {a : StigAct} {x : View} {kE : Obj} (h : ∀ k', a.about = some (id, k') → (bare k' = kE ↔ k' = k)) :
    (x.after me id k a).bare = x.bare.after me id kE a.bare := by
  have c1 : ∀ i k', a.about = some (i, k') → ((i = id ∧ bare k' = kE) ↔ (i = id ∧ k' = k)) := by
    intro i k' ha
    constructor <;> (rintro ⟨rfl, h2⟩; exact ⟨rfl, by first | exact (h k' ha).mp h2 | exact (h k' ha).mpr h2⟩)
  have c2 : ∀ i k', a.about = some (i, k') → (((i = id ∧ bare k' = kE) ∧ x.bare.known = true) ↔ ((i = id ∧ k' = k) ∧ x.known = true)) := fun i k' ha => by
    rw [c1 i k' ha]; rfl
  cases a with
  | create id' => simp only [View.after, StigAct.bare]; split <;> rfl
  | put i k' v =>
    have c := c2 i k' rfl
    simp only [View.after, StigAct.bare]
    by_cases hc : (i = id ∧ k' = k) ∧ x.known = true
    · rw [if_pos hc, if_pos (c.mpr hc), write_bare]
    · rw [if_neg hc, if_neg (fun h => hc (c.mp h))]
  | get i k' v =>
    have c := c2 i k' rfl
    simp only [View.after, StigAct.bare]
    by_cases hc : (i = id ∧ k' = k) ∧ x.known = true
    · rw [if_pos hc, if_pos (c.mpr hc)]
      simp only [View.bare, offer_bare]
      cases x.entry <;> rfl
    · rw [if_neg hc, if_neg (fun h => hc (c.mp h))]
  | size => rfl
  | recv t i k' d ts r =>
    have c := c1 i k' rfl
    simp only [View.after, StigAct.bare]
    by_cases hc : i = id ∧ k' = k
    · rw [if_pos hc, if_pos (c.mpr hc), hear_bare]; rfl
    · rw [if_neg hc, if_neg (fun h => hc (c.mp h))]
  | sent t i k' e =>
    have c := c1 i k' rfl
    simp only [View.after, StigAct.bare]
    by_cases hc : i = id ∧ k' = k
    · rw [if_pos hc, if_pos (c.mpr hc)]; rfl
    · rw [if_neg hc, if_neg (fun h => hc (c.mp h))]

theorem entry_none_of {id : Nat} {k : Obj} (h : FMap.get s.vstigs id = none) : Vstig.entry s id k = none := by
  unfold Vstig.entry; rw [h]; rfl

/-- Stigmergies without managers. -/
structure Plains (me : Nat) (s : Vstig.St Unit Obj Obj) : Prop where
  inv : OutMsg.Inv s.out
  me : s.me = me
  plain : ∀ i vs, FMap.get s.vstigs i = some vs → vs.onconflict = none

theorem plains_of {vm : VM} (m : Shows kd me vm s) : Plains me s := by
  refine ⟨m.inv, m.me, fun i vs hvs => ?_⟩
  have := m.stigs i
  rw [hvs] at this
  cases h1 : FMap.get vm.other.vstigs i with
  | none => rw [h1] at this; exact this.elim
  | some st => rw [h1] at this; exact this.plain'.1

/-- Queueing. -/
theorem queue_view (v : OutMsg.Inv s.out) {t : VType} {i : Nat} {k' : Obj} {e : Elem Obj} (h : Vstig.queue s t i k' e = .ok s') (id : Nat) (k : Obj) :
    viewOf s' id k = if id = i ∧ k = k' then { viewOf s id k with waiting := offer t e (viewOf s id k).waiting } else viewOf s id k := by
  obtain ⟨s1, h1, h2, h3, h4, h5, h6⟩ := queue_spec v t i k' e
  cases Res.ok.inj (h1.symm.trans h)
  have hw := h6 id k
  by_cases hc : id = i ∧ k = k'
  · rw [if_pos hc]
    obtain ⟨rfl, rfl⟩ := hc
    refine View.ext (by simp [viewOf, h4]) (entry_congr h4 id k) ?_
    show waitingMsg _ id k = offer t e (waitingMsg s id k)
    rw [hw]
    cases hq : waitingMsg s id k with
    | none => simp [offer]
    | some y => simp [offer]
  · rw [if_neg hc]
    refine View.ext (by simp [viewOf, h4]) (entry_congr h4 id k) ?_
    show waitingMsg _ id k = waitingMsg s id k
    rw [hw, if_neg (fun h => hc ⟨h.1, h.2.1⟩)]

/-- Storing. -/
theorem store_view {i : Nat} {k' : Obj} {vs : Vs Obj Obj} {e : Elem Obj} (hvs : FMap.get s.vstigs i = some vs) (id : Nat) (k : Obj) :
    viewOf (Vstig.store s i vs k' e) id k = if id = i ∧ k = k' then { viewOf s id k with entry := some e } else viewOf s id k := by
  have hE := entry_store hvs k' e id k
  have hk : (FMap.get (Vstig.store s i vs k' e).vstigs id).isSome = (FMap.get s.vstigs id).isSome := by
    simp only [Vstig.store, FMap.get_set]
    split
    · rename_i h; rw [h, hvs]; rfl
    · rfl
  by_cases hc : id = i ∧ k = k'
  · rw [if_pos hc]
    rw [if_pos hc] at hE
    exact View.ext hk hE rfl
  · rw [if_neg hc]
    rw [if_neg hc] at hE
    exact View.ext hk hE rfl

/-- Both. -/
theorem store_queue_view (v : OutMsg.Inv s.out) {t : VType} {i : Nat} {k' : Obj} {vs : Vs Obj Obj} {e : Elem Obj} (hvs : FMap.get s.vstigs i = some vs)
    (h : Vstig.queue (Vstig.store s i vs k' e) t i k' e = .ok s') (id : Nat) (k : Obj) :
    viewOf s' id k = if id = i ∧ k = k' then ⟨(viewOf s id k).known, some e, offer t e (viewOf s id k).waiting⟩ else viewOf s id k := by
  rw [queue_view (s := Vstig.store s i vs k' e) v h, store_view hvs]
  split <;> rfl

theorem known_of {i : Nat} {vs : Vs Obj Obj} (hvs : FMap.get s.vstigs i = some vs) (k : Obj) : (viewOf s i k).known = true := by simp [viewOf, hvs]

theorem flip_if {α : Type} {id i : Nat} {k k' : Obj} {a b : α} : (if id = i ∧ k = k' then a else b) = if i = id ∧ k' = k then a else b := by
  by_cases h : id = i ∧ k = k'
  · rw [if_pos h, if_pos ⟨h.1.symm, h.2.symm⟩]
  · rw [if_neg h, if_neg (fun e => h ⟨e.1.symm, e.2.symm⟩)]

theorem put_view (m : Plains me s) {i : Nat} {k' v : Obj} (h : Vstig.put .nil s i k' v = .ok s') (id : Nat) (k : Obj) :
    viewOf s' id k = (viewOf s id k).after me id k (.put i k' v) := by
  unfold Vstig.put at h
  cases hvs : FMap.get s.vstigs i with
  | none =>
    rw [hvs] at h
    cases h
    simp only [View.after]
    rw [if_neg]
    rintro ⟨⟨rfl, _⟩, h2⟩
    simp [viewOf, hvs] at h2
  | some vs =>
    rw [hvs] at h
    simp only at h
    have hE : Vstig.entry s i k' = FMap.get vs.data k' := by simp [Vstig.entry, hvs]
    have goal : ∀ x : View, (id = i ∧ k = k' → x = (viewOf s i k').write me v) → (¬ (id = i ∧ k = k') → x = viewOf s id k) →
        x = (viewOf s id k).after me id k (.put i k' v) := by
      intro x h1 h2
      simp only [View.after]
      by_cases hc : id = i ∧ k = k'
      · rw [if_pos ⟨⟨hc.1.symm, hc.2.symm⟩, by rw [hc.1]; exact known_of hvs k⟩, h1 hc, hc.1, hc.2]
      · rw [if_neg (fun e => hc ⟨e.1.1.symm, e.1.2.symm⟩), h2 hc]
    have hwr : ∀ o, FMap.get vs.data k' = o → (viewOf s i k').write me v = (match o with
        | some e => (⟨true, if v = .nil then none else some ⟨v, (e.ts + 1) % 65536, me⟩, offer .put ⟨v, (e.ts + 1) % 65536, me⟩ (waitingMsg s i k')⟩ : View)
        | none => if v = .nil then viewOf s i k' else ⟨true, some ⟨v, 1, me⟩, offer .put ⟨v, 1, me⟩ (waitingMsg s i k')⟩) := by
      intro o ho
      unfold View.write
      rw [show (viewOf s i k').entry = o from hE.trans ho, known_of hvs]
      rfl
    cases hl : FMap.get vs.data k' with
    | some x =>
      rw [hl] at h
      simp only [m.me] at h
      have hwr := hwr _ hl
      simp only at hwr
      by_cases hv : v = .nil
      · subst hv
        simp only [ne_eq, not_true_eq_false, if_false] at h
        obtain ⟨s1, h1, h2⟩ := Res.bind_eq_ok.mp h
        cases h2
        have hq := queue_view m.inv h1
        have hvst : s1.vstigs = s.vstigs := by
          obtain ⟨s2, g1, _, _, g4, _⟩ := queue_spec m.inv .put i k' (⟨.nil, (x.ts + 1) % U16, me⟩ : Elem Obj)
          cases Res.ok.inj (g1.symm.trans h1)
          exact g4
        have hent : ∀ id k, Vstig.entry { s1 with vstigs := FMap.set s1.vstigs i { vs with data := FMap.del vs.data k' } } id k =
            if id = i ∧ k = k' then none else Vstig.entry s id k := by
          intro id k
          unfold Vstig.entry
          simp only [FMap.get_set, hvst]
          by_cases hi : id = i
          · subst hi
            simp only [if_true, Option.bind_some, FMap.get_del, true_and, hvs]
          · simp [hi]
        have hkn : ∀ id k, (viewOf { s1 with vstigs := FMap.set s1.vstigs i { vs with data := FMap.del vs.data k' } } id k).known = (viewOf s id k).known := by
          intro id k
          simp only [viewOf, FMap.get_set, hvst]
          split
          · rename_i h; rw [h, hvs]; rfl
          · rfl
        refine goal _ ?_ ?_
        · rintro ⟨rfl, rfl⟩
          rw [hwr]
          refine View.ext ((hkn _ _).trans (known_of hvs _)) ?_ ?_
          · exact (hent _ _).trans (by simp)
          · have := congrArg View.waiting (hq id k)
            rw [if_pos ⟨rfl, rfl⟩] at this
            exact this
        · intro hc
          refine View.ext (hkn _ _) ((hent _ _).trans (by rw [if_neg hc]; rfl)) ?_
          have := congrArg View.waiting (hq id k)
          rw [if_neg hc] at this
          exact this
      · rw [if_pos hv] at h
        refine goal _ ?_ ?_
        · intro hc
          rw [store_queue_view m.inv hvs h, if_pos hc, hwr, if_neg hv, hc.1, hc.2, known_of hvs]
          rfl
        · intro hc
          rw [store_queue_view m.inv hvs h, if_neg hc]
    | none =>
      rw [hl] at h
      simp only [m.me] at h
      have hwr := hwr _ hl
      simp only at hwr
      by_cases hv : v = .nil
      · subst hv
        simp only [ne_eq, not_true_eq_false, if_false] at h
        cases h
        refine goal _ ?_ (fun _ => rfl)
        rintro ⟨rfl, rfl⟩
        rw [hwr, if_pos rfl]
      · rw [if_pos hv] at h
        refine goal _ ?_ ?_
        · intro hc
          rw [store_queue_view m.inv hvs h, if_pos hc, hwr, if_neg hv, hc.1, hc.2, known_of hvs]
          rfl
        · intro hc
          rw [store_queue_view m.inv hvs h, if_neg hc]

theorem get_view (m : Plains me s) {i : Nat} {k' v : Obj} (h : Vstig.get .nil s i k' = .ok (v, s')) (id : Nat) (k : Obj) :
    viewOf s' id k = (viewOf s id k).after me id k (.get i k' v) := by
  unfold Vstig.get at h
  cases hvs : FMap.get s.vstigs i with
  | none =>
    rw [hvs] at h
    cases h
    simp only [View.after]
    rw [if_neg]
    rintro ⟨⟨rfl, _⟩, h2⟩
    simp [viewOf, hvs] at h2
  | some vs =>
    rw [hvs] at h
    simp only at h
    have hE : Vstig.entry s i k' = FMap.get vs.data k' := by simp [Vstig.entry, hvs]
    have fin : ∀ e, Vstig.queue s .query i k' e = .ok s' → e = (Vstig.entry s i k').getD ⟨.nil, 0, me⟩ → viewOf s' id k = (viewOf s id k).after me id k (.get i k' v) := by
      intro e hq he
      rw [queue_view m.inv hq]
      simp only [View.after]
      by_cases hc : id = i ∧ k = k'
      · rw [if_pos hc, if_pos ⟨⟨hc.1.symm, hc.2.symm⟩, by rw [hc.1]; exact known_of hvs k⟩, he, hc.1, hc.2]
        rfl
      · rw [if_neg hc, if_neg (fun e => hc ⟨e.1.1.symm, e.1.2.symm⟩)]
    cases hl : FMap.get vs.data k' with
    | some x =>
      rw [hl] at h
      obtain ⟨s1, h1, h2⟩ := Res.bind_eq_ok.mp h
      cases h2
      exact fin _ h1 (by rw [hE, hl]; rfl)
    | none =>
      rw [hl] at h
      obtain ⟨s1, h1, h2⟩ := Res.bind_eq_ok.mp h
      cases h2
      exact fin _ h1 (by rw [hE, hl, m.me]; rfl)

theorem recv_view (m : Plains me s) {t : VType} {i : Nat} {k' : Obj} {v : Elem Obj} (h : Vstig.recv .nil s t i k' v = .ok s') (id : Nat) (k : Obj) :
    viewOf s' id k = if i = id ∧ k' = k then (viewOf s id k).hear t v else viewOf s id k := by
  have goal : (id = i ∧ k = k' → viewOf s' i k' = (viewOf s i k').hear t v) → (¬ (id = i ∧ k = k') → viewOf s' id k = viewOf s id k) →
      viewOf s' id k = if i = id ∧ k' = k then (viewOf s id k).hear t v else viewOf s id k := by
    intro h1 h2
    by_cases hc : id = i ∧ k = k'
    · rw [if_pos ⟨hc.1.symm, hc.2.symm⟩, hc.1, hc.2, h1 hc]
    · rw [if_neg (fun e => hc ⟨e.1.symm, e.2.symm⟩), h2 hc]
  cases hvs : FMap.get s.vstigs i with
  | none =>
    have hk : (viewOf s i k').known = false := by simp [viewOf, hvs]
    cases t with
    | put =>
      have h : Vstig.recvPut .nil s i k' v = .ok s' := h
      unfold Vstig.recvPut at h
      rw [hvs] at h
      cases h
      refine goal (fun _ => ?_) (fun _ => rfl)
      unfold View.hear
      rw [if_neg (by rw [hk]; simp), if_neg (by simp)]
    | query =>
      have h : Vstig.recvQuery .nil s i k' v = .ok s' := h
      unfold Vstig.recvQuery at h
      rw [hvs] at h
      refine goal (fun _ => ?_) (fun hc => ?_)
      · rw [queue_view m.inv h, if_pos ⟨rfl, rfl⟩]
        unfold View.hear
        rw [if_neg (by rw [hk]; simp), if_pos rfl]
      · rw [queue_view m.inv h, if_neg hc]
  | some vs =>
    have pl := m.plain i vs hvs
    have hE : (viewOf s i k').entry = FMap.get vs.data k' := by simp [viewOf, Vstig.entry, hvs]
    have hk := known_of hvs k'
    -- storing and telling
    have tell : ∀ e (L : List (Nat × Obj × Elem Obj)), Vstig.queue (Vstig.store { s with lost := L } i vs k' e) .put i k' e = .ok s' → (viewOf s i k').hear t v = ⟨true, some e, offer .put e (viewOf s i k').waiting⟩ →
        viewOf s' id k = if i = id ∧ k' = k then (viewOf s id k).hear t v else viewOf s id k := by
      intro e L hq hh
      have hL := store_queue_view (s := { s with lost := L }) m.inv hvs hq
      refine goal (fun _ => ?_) (fun hc => ?_)
      · rw [hL, if_pos ⟨rfl, rfl⟩, hh]
        exact View.ext hk rfl rfl
      · rw [hL, if_neg hc]
        rfl
    have clash : ∀ l, FMap.get vs.data k' = some l → l.ts = v.ts ∧ l.robot ≠ v.robot → Vstig.conflict .nil s i vs k' l v = .ok s' →
        viewOf s' id k = if i = id ∧ k' = k then (viewOf s id k).hear t v else viewOf s id k := by
      intro l hl hlv hc
      unfold Vstig.conflict at hc
      rw [resolve_default .nil pl] at hc
      simp only at hc
      rw [newer_winner hlv] at hc
      have hc : ∃ L, Vstig.queue (Vstig.store { s with lost := L } i vs k' (newer l v)) .put i k' (newer l v) = .ok s' := by
        split at hc
        · exact ⟨s.lost ++ [(i, k', l)], hc⟩
        · exact ⟨s.lost, hc⟩
      obtain ⟨L, hc⟩ := hc
      refine tell _ L hc ?_
      unfold View.hear
      rw [if_pos hk, hE, hl]
      simp only
      rw [if_neg (by omega)]
    have same : ∀ l, FMap.get vs.data k' = some l → ((l.ts = v.ts ∧ l.robot = v.robot) ∨ (t = .put ∧ v.ts < l.ts)) → s' = s →
        viewOf s' id k = if i = id ∧ k' = k then (viewOf s id k).hear t v else viewOf s id k := by
      intro l hl hlv hs
      subst hs
      refine goal (fun _ => ?_) (fun _ => rfl)
      unfold View.hear
      rw [if_pos hk, hE, hl]
      simp only
      rw [if_pos hlv]
    have later : ∀ l, FMap.get vs.data k' = some l → l.ts < v.ts → (viewOf s i k').hear t v = ⟨true, some v, offer .put v (viewOf s i k').waiting⟩ := by
      intro l hl hlv
      unfold View.hear
      rw [if_pos hk, hE, hl]
      simp only
      rw [if_neg (by omega)]
      unfold newer
      rw [if_pos hlv]
    cases t with
    | put =>
      have h : Vstig.recvPut .nil s i k' v = .ok s' := h
      unfold Vstig.recvPut at h
      rw [hvs] at h
      simp only at h
      cases hl : FMap.get vs.data k' with
      | none =>
        rw [hl] at h
        refine tell v s.lost h ?_
        unfold View.hear
        rw [if_pos hk, hE, hl]
        simp only
        rw [if_neg (by simp)]
      | some l =>
        rw [hl] at h
        simp only at h
        split at h
        · rename_i h1; exact tell v s.lost h (later l hl h1)
        · split at h
          · rename_i h1 h2; exact clash l hl h2 h
          · rename_i h1 h2
            cases h
            exact same l hl (by simp only [true_and]; omega) rfl
    | query =>
      have h : Vstig.recvQuery .nil s i k' v = .ok s' := h
      unfold Vstig.recvQuery at h
      rw [hvs] at h
      simp only at h
      cases hl : FMap.get vs.data k' with
      | none =>
        rw [hl] at h
        simp only at h
        split at h
        · rename_i hv
          refine goal (fun _ => ?_) (fun hc => ?_)
          · rw [queue_view m.inv h, if_pos ⟨rfl, rfl⟩]
            unfold View.hear
            rw [if_pos hk, hE, hl]
            simp only [hv, true_and, if_true]
            exact View.ext rfl (hE.trans hl) rfl
          · rw [queue_view m.inv h, if_neg hc]
        · rename_i hv
          refine tell v s.lost h ?_
          unfold View.hear
          rw [if_pos hk, hE, hl]
          simp only
          rw [if_neg (fun e => hv e.2)]
      | some l =>
        rw [hl] at h
        simp only at h
        split at h
        · rename_i h1; exact tell v s.lost h (later l hl h1)
        · split at h
          · rename_i h1 h2
            refine goal (fun _ => ?_) (fun hc => ?_)
            · rw [queue_view m.inv h, if_pos ⟨rfl, rfl⟩]
              unfold View.hear
              rw [if_pos hk, hE, hl]
              simp only
              rw [if_neg (by simp; omega)]
              have : newer l v = l := by
                unfold newer
                rw [if_neg h1, if_pos (.inl h2)]
              rw [this]
              exact View.ext hk (hE.trans hl) rfl
            · rw [queue_view m.inv h, if_neg hc]
          · split at h
            · rename_i h1 h2 h3; exact clash l hl h3 h
            · rename_i h1 h2 h3
              cases h
              exact same l hl (by left; omega) rfl

theorem sent_view (v : OutMsg.Inv s.out) {t : VType} {i : Nat} {k' : Obj} {e : Elem Obj} {q : Q Unit Obj Obj} (hf : OutMsg.first s.out = some (.vstig t i k' e)) (hn : OutMsg.next s.out = .ok q)
    (id : Nat) (k : Obj) : waitingMsg s i k' = some (t, e) ∧ viewOf { s with out := q } id k = if i = id ∧ k' = k then { viewOf s id k with waiting := none } else viewOf s id k := by
  obtain ⟨q', h1, _, _, h2⟩ := next_spec v
  cases Res.ok.inj (h1.symm.trans hn)
  rcases h2 with ⟨t2, i2, k2, e2, g1, g2, ⟨x, g3, g4, g5, g6, g7⟩, g8⟩ | ⟨g1, _⟩
  swap
  · exact absurd hf (g1 _ _ _ _)
  have hh := hf.symm.trans g1
  simp only [Option.some.injEq, Msg.vstig.injEq] at hh
  obtain ⟨rfl, rfl, rfl, rfl⟩ := hh
  have vq : OutMsg.Inv q := by
    obtain ⟨q2, f1, f2, _⟩ := next_spec v
    cases Res.ok.inj (f1.symm.trans hn)
    exact f2
  constructor
  · have : queued s.out i k' = some x := (queued_iff v _ _ _).mpr ⟨g3, g4, g5⟩
    simp [waitingMsg, this, g6, g7]
  · by_cases hc : i = id ∧ k' = k
    · rw [if_pos hc]
      obtain ⟨rfl, rfl⟩ := hc
      refine View.ext rfl rfl ?_
      simp [viewOf, waitingMsg, g2]
    · rw [if_neg hc]
      refine View.ext rfl rfl ?_
      have : queued q id k = queued s.out id k := by
        apply Option.ext
        intro x'
        rw [queued_iff vq, queued_iff v, g8]
        constructor
        · rintro ⟨⟨h1, _⟩, h3⟩; exact ⟨h1, h3⟩
        · rintro ⟨h1, h3⟩
          refine ⟨⟨h1, ?_⟩, h3⟩
          rintro ⟨h4, h5⟩
          exact hc ⟨h4.symm.trans h3.1, h5.symm.trans h3.2⟩
      simp [viewOf, waitingMsg, this]

theorem did_view (m : Plains me s) {a : StigAct} (h : Did a s s') (id : Nat) (k : Obj) : viewOf s' id k = (viewOf s id k).after me id k a := by
  cases a with
  | create id' =>
    cases h
    simp only [View.after]
    by_cases hi : id' = id
    · subst hi
      rw [if_pos rfl]
      refine View.ext (by simp [viewOf, Vstig.create, FMap.get_set]) ?_ rfl
      simp only [viewOf, Vstig.entry, Vstig.create, FMap.get_set, if_true, Option.bind_some, Vs.new]
      rfl
    · rw [if_neg hi]
      have : FMap.get (Vstig.create s id').vstigs id = FMap.get s.vstigs id := by
        simp only [Vstig.create, FMap.get_set]
        rw [if_neg (fun e => hi e.symm), FMap.get_del, if_neg (fun e => hi e.symm)]
      refine View.ext ?_ ?_ rfl
      · simp only [viewOf]; rw [this]
      · simp only [viewOf, Vstig.entry]; rw [this]
  | put i k' v => exact put_view m h id k
  | get i k' v => exact get_view m h id k
  | size i n => cases h.1; rfl
  | recv t i k' d ts r => exact recv_view m h id k
  | sent t i k' e =>
    obtain ⟨hf, q, hn, rfl⟩ := h
    exact (sent_view m.inv hf hn id k).2

/-- The value a `get` gives. -/
def View.value (x : View) : Obj := (x.entry.map (·.data)).getD .nil

/-- What happened (`l`) led from one view of a key to another, every `get` of the key gave the value of the view it met, and every message about the key that
was sent is the one that waited. -/
def Told (me id : Nat) (kE : Obj) : View → List StigAct → View → Prop
  | x, [], y => y = x
  | x, a :: l, y => (∀ k v, a = .get id k v → bare k = kE → bare v = x.value) ∧
    (∀ t k e, a = .sent t id k e → bare k = kE → x.waiting = some (t, bareElem e)) ∧ Told me id kE (x.after me id kE a.bare) l y

/-- The view is what the stigmergies say, whatever number the key's string has. -/
structure ViewIs (s : Vstig.St Unit Obj Obj) (id : Nat) (kE : Obj) (x : View) : Prop where
  known : x.known = (FMap.get s.vstigs id).isSome
  entry : ∀ e', x.entry = some e' ↔ ∃ k e, bare k = kE ∧ Vstig.entry s id k = some e ∧ bareElem e = e'
  waiting : ∀ y', x.waiting = some y' ↔ ∃ k y, bare k = kE ∧ waitingMsg s id k = some y ∧ (y.1, bareElem y.2) = y'

theorem shows_key {vm : VM} (m : Shows kd me vm s) {id : Nat} {k : Obj} {e : Elem Obj} (h : Vstig.entry s id k = some e) : KeyOk kd vm.strings k := by
  unfold Vstig.entry at h
  obtain ⟨vs, h1, h2⟩ := Option.bind_eq_some_iff.mp h
  have := m.stigs id
  rw [h1] at this
  cases h3 : FMap.get vm.other.vstigs id with
  | none => rw [h3] at this; exact this.elim
  | some st =>
    rw [h3] at this
    obtain ⟨x, hx, hxe⟩ := List.mem_map.mp (this.same.mem_iff.mp (FMap.mem_of_get h2))
    have hk := this.keys x hx
    cases hxe
    exact hk

theorem waiting_key {vm : VM} (m : Shows kd me vm s) {id : Nat} {k : Obj} {y : VType × Elem Obj} (h : waitingMsg s id k = some y) : KeyOk kd vm.strings k := by
  unfold waitingMsg at h
  obtain ⟨x, h1, _⟩ := Option.map_eq_some_iff.mp h
  obtain ⟨h2, rfl, rfl⟩ := (queued_iff m.inv _ _ _).mp h1
  have key : ∀ {l : List (VMsg Obj Obj)} {l' : List StigMsg}, l.map msgOf = l'.map (seenMsg vm.heap) → x ∈ l → ∃ x' ∈ l', x'.k = x.key := by
    intro l l' e hx
    have : msgOf x ∈ l'.map (seenMsg vm.heap) := by rw [← e]; exact List.mem_map_of_mem hx
    obtain ⟨x', hx', he⟩ := List.mem_map.mp this
    simp only [seenMsg, msgOf, Prod.mk.injEq] at he
    exact ⟨x', hx', he.2.1⟩
  rcases List.mem_append.mp h2 with h2 | h2
  · obtain ⟨x', hx', e⟩ := key m.puts h2
    rw [← e]
    exact (m.msgs x' (List.mem_append_left _ hx')).1
  · obtain ⟨x', hx', e⟩ := key m.queries h2
    rw [← e]
    exact (m.msgs x' (List.mem_append_right _ hx')).1

theorem KeyOk.str {sm : SM} {k : Obj} (h : KeyOk kd sm k) : StrOk sm k := by
  cases k with
  | str j x => exact h.2.1
  | _ => trivial

theorem StrOk.grow {sm sm' : SM} (h : ∀ j x, Strman.get sm j = some x → Strman.get sm' j = some x) {k : Obj} (hk : StrOk sm k) : StrOk sm' k := by
  cases k with
  | str j x => exact h _ _ hk
  | _ => trivial

theorem bare_inj {sm : SM} (i : Strman.Inv sm) {k k' : Obj} (h : StrOk sm k) (h' : StrOk sm k') (e : bare k = bare k') : k = k' := by
  have key : ∀ {j j' : Nat} {y y' : Bytes}, StrOk sm (.str j y) → StrOk sm (.str j' y') → bare (.str j y) = bare (.str j' y') → Obj.str j y = .str j' y' := by
    intro j j' y y' h h' e
    simp only [bare, Obj.str.injEq, true_and] at e
    subst e
    rw [same_id i h h']
  cases k <;> cases k' <;> first | exact e | exact key h h' e | (simp [bare] at e)

/-- The view of a key whose string is in the table. -/
theorem ViewIs.at {vm : VM} (m : Shows kd me vm s) {id : Nat} {kE : Obj} {x : View} (r : ViewIs s id kE x) {sm : SM} (i : Strman.Inv sm)
    (g : ∀ j y, Strman.get vm.strings j = some y → Strman.get sm j = some y) {k : Obj} (hk : StrOk sm k) (he : bare k = kE) : x = (viewOf s id k).bare := by
  have : x.entry = (Vstig.entry s id k).map bareElem := by
    cases h : Vstig.entry s id k with
    | some e => rw [Option.map_some]; exact (r.entry _).mpr ⟨k, e, he, h, rfl⟩
    | none =>
      cases hx : x.entry with
      | none => rfl
      | some e' =>
        obtain ⟨k', e, h1, h2, _⟩ := (r.entry e').mp hx
        cases bare_inj i (StrOk.grow g (shows_key m h2).str) hk (h1.trans he.symm)
        rw [h] at h2
        cases h2
  have hw : x.waiting = (waitingMsg s id k).map (fun y => (y.1, bareElem y.2)) := by
    cases h : waitingMsg s id k with
    | some e => rw [Option.map_some]; exact (r.waiting _).mpr ⟨k, e, he, h, rfl⟩
    | none =>
      cases hx : x.waiting with
      | none => rfl
      | some e' =>
        obtain ⟨k', e, h1, h2, _⟩ := (r.waiting e').mp hx
        cases bare_inj i (StrOk.grow g (waiting_key m h2).str) hk (h1.trans he.symm)
        rw [h] at h2
        cases h2
  exact View.ext r.known this hw

/-- The key an act is about has its string in the table. -/
def KeysIn (sm : SM) (a : StigAct) : Prop := ∀ id k, a.about = some (id, k) → StrOk sm k

theorem after_other {id : Nat} {kE : Obj} {a : StigAct} (x : View) (h1 : ∀ k, a.about = some (id, k) → k ≠ kE) (h2 : a ≠ .create id) : x.after me id kE a = x := by
  have c : ∀ i k', a.about = some (i, k') → ¬ (i = id ∧ k' = kE) := by
    rintro i k' ha ⟨rfl, rfl⟩
    exact h1 _ ha rfl
  cases a with
  | create id' => simp only [View.after]; rw [if_neg (fun e => h2 (by rw [e]))]
  | size => rfl
  | put i k' v => simp only [View.after]; rw [if_neg (fun e => c i k' rfl e.1)]
  | get i k' v => simp only [View.after]; rw [if_neg (fun e => c i k' rfl e.1)]
  | recv t i k' d ts r => simp only [View.after]; rw [if_neg (c i k' rfl)]
  | sent t i k' e => simp only [View.after]; rw [if_neg (c i k' rfl)]

theorem write_known (v : Obj) (x : View) : (x.write me v).known = x.known := by
  unfold View.write
  split
  · rfl
  · split <;> rfl

theorem hear_known (t : VType) (v : Elem Obj) (x : View) : (x.hear t v).known = x.known := by
  unfold View.hear
  split
  · rename_i h
    split
    · split
      · rfl
      · exact h.symm
    · split
      · rfl
      · exact h.symm
  · split <;> rfl

theorem after_known {id : Nat} {kE : Obj} {a : StigAct} (x : View) (h2 : a ≠ .create id) : (x.after me id kE a).known = x.known := by
  cases a with
  | create id' => simp only [View.after]; rw [if_neg (fun e => h2 (by rw [e]))]
  | size => rfl
  | put i k' v =>
    simp only [View.after]
    split
    · exact write_known _ _
    · rfl
  | get i k' v => simp only [View.after]; split <;> rfl
  | recv t i k' d ts r =>
    simp only [View.after]
    split
    · exact hear_known _ _ _
    · rfl
  | sent t i k' e => simp only [View.after]; split <;> rfl

theorem about_bare {a : StigAct} {id : Nat} {k : Obj} (h : a.bare.about = some (id, k)) : ∃ k', a.about = some (id, k') ∧ VM.bare k' = k := by
  cases a <;> first | (cases h; exact ⟨_, rfl, rfl⟩) | cases h

theorem did_viewIs {vm w : VM} (m : Shows kd me vm s) (m' : Shows kd me w s') (i : Strman.Inv w.strings) {a : StigAct} (d : Did a s s') {id : Nat} {kE : Obj} {x : View}
    (r : ViewIs s id kE x) (g : (∀ j y, Strman.get vm.strings j = some y → Strman.get w.strings j = some y) ∧ KeysIn w.strings a ∨ s' = s ∧ x.after me id kE a.bare = x) :
    ViewIs s' id kE (x.after me id kE a.bare) := by
  rcases g with ⟨g, ka⟩ | ⟨rfl, hx⟩
  swap
  · rw [hx]; exact r
  have view := did_view (plains_of m) d id
  -- the act is about this key
  by_cases hk : ∃ k, a.about = some (id, k) ∧ bare k = kE
  · obtain ⟨k, hak, hke⟩ := hk
    have sk : StrOk w.strings k := ka _ _ hak
    have hx := r.at m i g sk hke
    have hx' : x.after me id kE a.bare = (viewOf s' id k).bare := by
      rw [view, hx]
      refine (after_bare ?_).symm
      intro k' ha'
      rw [hak] at ha'
      cases ha'
      simp [hke]
    rw [hx']
    refine ⟨rfl, fun e' => ⟨fun he => ?_, ?_⟩, fun e' => ⟨fun he => ?_, ?_⟩⟩
    · obtain ⟨e, h1, h2⟩ := Option.map_eq_some_iff.mp he
      exact ⟨k, e, hke, h1, h2⟩
    · rintro ⟨k', e, h1, h2, h3⟩
      cases bare_inj i (shows_key m' h2).str sk (h1.trans hke.symm)
      show (Vstig.entry s' id _).map bareElem = _
      rw [h2, Option.map_some, h3]
    · obtain ⟨e, h1, h2⟩ := Option.map_eq_some_iff.mp he
      exact ⟨k, e, hke, h1, h2⟩
    · rintro ⟨k', e, h1, h2, h3⟩
      cases bare_inj i (waiting_key m' h2).str sk (h1.trans hke.symm)
      show (waitingMsg s' id _).map _ = _
      rw [h2, Option.map_some, h3]
  · by_cases hc : a = .create id
    · subst hc
      cases d
      have hx : x.after me id kE (StigAct.create id).bare = ⟨true, none, x.waiting⟩ := by simp [View.after, StigAct.bare]
      rw [hx]
      refine ⟨by simp [Vstig.create, FMap.get_set], fun e' => ⟨fun h => (by cases h), ?_⟩, r.waiting⟩
      rintro ⟨k, e, _, h2, _⟩
      have : Vstig.entry (Vstig.create s id) id k = none := by
        simp only [Vstig.entry, Vstig.create, FMap.get_set, if_true, Option.bind_some, Vs.new]
        rfl
      rw [this] at h2
      cases h2
    · -- nothing about this key
      have hx : x.after me id kE a.bare = x := by
        refine after_other x ?_ ?_
        · rintro k ha rfl
          obtain ⟨k', h1, h2⟩ := about_bare ha
          exact hk ⟨k', h1, h2⟩
        · intro e
          apply hc
          cases a <;> simp [StigAct.bare] at e
          rw [e]
      have hv : ∀ k, bare k = kE → viewOf s' id k = viewOf s id k := by
        intro k hke
        rw [view]
        refine after_other _ ?_ hc
        rintro k' ha rfl
        exact hk ⟨_, ha, hke⟩
      have hkn : (FMap.get s'.vstigs id).isSome = (FMap.get s.vstigs id).isSome :=
        (congrArg View.known (view .nil)).trans (after_known _ hc)
      rw [hx]
      refine ⟨by rw [r.known, hkn], fun e' => (r.entry e').trans ?_, fun e' => (r.waiting e').trans ?_⟩
      · constructor
        · rintro ⟨k, e, h1, h2, h3⟩
          exact ⟨k, e, h1, by rw [← h2]; exact congrArg View.entry (hv k h1), h3⟩
        · rintro ⟨k, e, h1, h2, h3⟩
          exact ⟨k, e, h1, by rw [← h2]; exact (congrArg View.entry (hv k h1)).symm, h3⟩
      · constructor
        · rintro ⟨k, e, h1, h2, h3⟩
          exact ⟨k, e, h1, by rw [← h2]; exact congrArg View.waiting (hv k h1), h3⟩
        · rintro ⟨k, e, h1, h2, h3⟩
          exact ⟨k, e, h1, by rw [← h2]; exact (congrArg View.waiting (hv k h1)).symm, h3⟩

theorem does_told (law : Obj.StrcmpLaw E.sc) (hb : base + 6 < 2147483648) {mgr : Nat → VElem → VElem → VM → Res (VM × Option VElem)} {hook : Nat → VElem → VM → Res VM}
    {a : StigAct} {vm w : VM} (i : VInv vm) (m : Shows kd me vm s) (d : Does E me base kd mgr hook a vm w) {id : Nat} {kE : Obj} {x : View} (r : ViewIs s id kE x) :
    ∃ s', Did a s s' ∧ Shows kd me w s' ∧ VInv w ∧ ViewIs s' id kE (x.after me id kE a.bare) ∧ (∀ k v, a = .get id k v → bare k = kE → bare v = x.value) ∧
      ∀ t k e, a = .sent t id k e → bare k = kE → x.waiting = some (t, bareElem e) := by
  obtain ⟨s', h1, h2, h3⟩ := does_shows law hb i m d
  refine ⟨s', h1, h2, h3, ?_, ?_, ?_⟩
  · refine did_viewIs m h2 h3.strings h1 r ?_
    cases d with
    | create e ha hid hz hc =>
      obtain ⟨w', k1, k2, k3⟩ := create_sim (E := E) law hb e ha hid hz m
      cases Res.ok.inj (k1.symm.trans hc)
      exact .inl ⟨k2.strs, fun _ _ h => by cases h⟩
    | put e hid hk ok hv hz hc =>
      obtain ⟨w', s', k1, k2, k3⟩ := put_sim (E := E) (key_homog law i.strings kd) e hid hz m hk (keyOk_of i hk ok) hv
      cases Res.ok.inj (k1.symm.trans hc)
      exact .inl ⟨k3.strs, fun _ _ h => by cases h; exact StrOk.grow k3.strs (strOk_of i hk)⟩
    | get e hid hk ok hz hc hg =>
      obtain ⟨w', s', v, k1, k2, k3⟩ := get_sim (E := E) (key_homog law i.strings kd) e hid hz m hk (keyOk_of i hk ok)
      cases Res.ok.inj (k1.symm.trans hc)
      exact .inl ⟨k3.strs, fun _ _ h => by cases h; exact StrOk.grow k3.strs (strOk_of i hk)⟩
    | size e hid hz hn hc hg => exact .inr ⟨h1.1, rfl⟩
    | @recv _ _ t id' k d ts robot kv dv bk bd hkp hdp hkd hkw hdw hk hd hid hts hrob hz hc ka da ho =>
      rcases ho with ⟨rfl, hu⟩ | ⟨o1, _⟩
      · have hn := stigs_none m hu
        have h1 : Vstig.recvPut .nil s id' k ⟨d, ts, robot⟩ = .ok s' := h1
        unfold Vstig.recvPut at h1
        rw [hn] at h1
        cases h1
        refine .inr ⟨rfl, ?_⟩
        simp only [View.after, StigAct.bare]
        split
        · rename_i hi
          obtain ⟨rfl, _⟩ := hi
          unfold View.hear
          rw [if_neg (by rw [r.known, hn]; simp), if_neg (by simp)]
        · rfl
      · obtain ⟨w', s', k', d', k1, _, _, _, _, _, _, _, _, _, k5, _, _⟩ := arrive_sim (mgr := mgr) (hook := hook) law i m hkp hdp hkd hkw hdw hk hd hid hts hrob hz (t := t)
        cases Res.ok.inj (k1.symm.trans hc)
        exact .inl ⟨k5, fun _ _ h => by cases h; exact o1⟩
    | @sent _ t x l hq hp =>
      refine .inl ⟨fun _ _ h => h, fun _ _ h => ?_⟩
      cases h
      refine (m.msgs x ?_).1.str
      cases t
      · exact List.mem_append_left _ (by rw [show vm.other.puts = x :: l from hq]; exact List.mem_cons_self)
      · exact List.mem_append_right _ (by rw [show vm.other.queries = x :: l from hq]; exact List.mem_cons_self)
  · intro k v ha hk
    cases d with
    | get e hid hk' ok hz hc hg =>
      cases ha
      have hx := r.at m i.strings (fun _ _ h => h) (strOk_of i hk') hk
      have h1 : Vstig.get .nil s id k = .ok (v, s') := h1
      rw [hx]
      show _ = (((Vstig.entry s id k).map bareElem).map (·.data)).getD .nil
      cases hvs : FMap.get s.vstigs id with
      | none =>
        unfold Vstig.get at h1
        rw [hvs] at h1
        cases h1
        rw [entry_none_of hvs]
        rfl
      | some vs =>
        obtain ⟨s1, g1, _, _⟩ := get_upd .nil m.inv hvs k
        have e := Res.ok.inj (g1.symm.trans h1)
        simp only [Prod.mk.injEq] at e
        rw [← e.1]
        cases Vstig.entry s id k <;> rfl
    | _ => cases ha
  · intro t k e ha hk
    subst ha
    obtain ⟨hf, q, hn, rfl⟩ := h1
    have hw := (sent_view m.inv hf hn id k).1
    exact (r.waiting _).mpr ⟨k, (t, e), hk, hw, rfl⟩

/-- What a robot holds under a key, and what it reads, over a whole life. -/
theorem life_told (law : Obj.StrcmpLaw E.sc) (hb : base + 6 < 2147483648) {mgr : Nat → VElem → VElem → VM → Res (VM × Option VElem)} {hook : Nat → VElem → VM → Res VM}
    {l : List StigAct} {vm w : VM} (f : Life E me base kd mgr hook l vm w) {id : Nat} {kE : Obj} : ∀ {s : Vstig.St Unit Obj Obj} {x : View}, VInv vm → Shows kd me vm s → ViewIs s id kE x →
      ∃ s' y, Ran l s s' ∧ Shows kd me w s' ∧ VInv w ∧ Told me id kE x l y ∧ ViewIs s' id kE y := by
  induction f with
  | nil vm => exact fun i m r => ⟨_, _, .nil _, m, i, rfl, r⟩
  | work q _ ih => exact fun i m r => ih q.inv (q.shows m) r
  | act d _ ih =>
    intro s x i m r
    obtain ⟨s1, h1, h2, h3, h4, h5, h6⟩ := does_told law hb i m d r
    obtain ⟨s2, y, k1, k2, k3, k4, k5⟩ := ih h3 h2 h4
    exact ⟨s2, y, .cons h1 k1, k2, k3, ⟨h5, h6, k4⟩, k5⟩

/-- What the machine has stored under a key. -/
def stored (E : Env) (vm : VM) (id : Nat) (k : Obj) : Res (Option (Elem Obj)) :=
  match FMap.get vm.other.vstigs id with
  | none => .ok none
  | some st => do
    let x ← Table.get E.sc st.data k
    pure (x.map (seen vm.heap))

theorem stored_eq (law : Obj.StrcmpLaw E.sc) {vm : VM} (i : VInv vm) (m : Shows kd me vm s) (id : Nat) {k : Obj} (hk : KeyOk kd vm.strings k) :
    stored E vm id k = .ok (Vstig.entry s id k) := by
  unfold stored Vstig.entry
  cases h : FMap.get vm.other.vstigs id with
  | none => rw [stigs_none m h]; rfl
  | some st =>
    obtain ⟨vs, h1, h2⟩ := stigs_both m h
    obtain ⟨r, g1, g2, _⟩ := stig_get (key_homog law i.strings kd) h2 hk
    simp only
    rw [g1, h1, Res.ok_bind, Option.bind_some, g2]
    rfl

/-- The waiting messages are those in the machine's queues. -/
theorem waiting_iff {vm : VM} (m : Shows kd me vm s) (id : Nat) (k : Obj) (t : VType) (e : Elem Obj) :
    waitingMsg s id k = some (t, e) ↔ ∃ x ∈ queueOf t vm.other, x.id = id ∧ x.k = k ∧ seen vm.heap x.e = e := by
  have there : ∀ {l : List (VMsg Obj Obj)} {l' : List StigMsg}, l.map msgOf = l'.map (seenMsg vm.heap) →
      ((∃ y ∈ l, y.id = id ∧ y.key = k ∧ y.elem = e) ↔ ∃ x ∈ l', x.id = id ∧ x.k = k ∧ seen vm.heap x.e = e) := by
    intro l l' h
    constructor
    · rintro ⟨y, hy, rfl, rfl, rfl⟩
      have : msgOf y ∈ l'.map (seenMsg vm.heap) := by rw [← h]; exact List.mem_map_of_mem hy
      obtain ⟨x, hx, he⟩ := List.mem_map.mp this
      simp only [seenMsg, msgOf, Prod.mk.injEq] at he
      exact ⟨x, hx, he⟩
    · rintro ⟨x, hx, rfl, rfl, rfl⟩
      have : seenMsg vm.heap x ∈ l.map msgOf := by rw [h]; exact List.mem_map_of_mem hx
      obtain ⟨y, hy, he⟩ := List.mem_map.mp this
      simp only [seenMsg, msgOf, Prod.mk.injEq] at he
      exact ⟨y, hy, he⟩
  have inq : ∀ y, (y ∈ vmsgs s.out ∧ y.type = t) ↔ y ∈ (match t with | .put => s.out.put | .query => s.out.query) := by
    intro y
    unfold vmsgs
    cases t
    · simp only [List.mem_append]
      constructor
      · rintro ⟨h | h, h2⟩
        · exact h
        · rw [m.inv.tquery y h] at h2; cases h2
      · exact fun h => ⟨.inl h, m.inv.tput y h⟩
    · simp only [List.mem_append]
      constructor
      · rintro ⟨h | h, h2⟩
        · rw [m.inv.tput y h] at h2; cases h2
        · exact h
      · exact fun h => ⟨.inr h, m.inv.tquery y h⟩
  have first : waitingMsg s id k = some (t, e) ↔ ∃ y ∈ (match t with | .put => s.out.put | .query => s.out.query), y.id = id ∧ y.key = k ∧ y.elem = e := by
    unfold waitingMsg
    rw [Option.map_eq_some_iff]
    constructor
    · rintro ⟨y, h1, h2⟩
      obtain ⟨h3, h4, h5⟩ := (queued_iff m.inv _ _ _).mp h1
      simp only [Prod.mk.injEq] at h2
      exact ⟨y, (inq y).mp ⟨h3, h2.1⟩, h4, h5, h2.2⟩
    · rintro ⟨y, h1, h2, h3, h4⟩
      obtain ⟨h5, h6⟩ := (inq y).mpr h1
      exact ⟨y, (queued_iff m.inv _ _ _).mpr ⟨h5, h2, h3⟩, by rw [h6, h4]⟩
  rw [first]
  cases t
  · exact there m.puts
  · exact there m.queries

end Buzz.VM
