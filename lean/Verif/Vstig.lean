import Verif.OutMsg

/-
Virtual stigmergy: src/buzz/buzzvstig.c and the message handlers in src/buzz/buzzvm.c.

Dictionaries are finite maps (C03, C13 for the keys).  Data are values: the code stores the object passed to `put` without
copying, so a table mutated after the put is outside this model.  The conflict manager is a pure function of key and entries
whose result is the data and robot fields of the table it returns (`none`: no valid table); the lost-conflict hook is
recorded, not run.  Deserialisation of the messages is C18.
-/
namespace Buzz.Vstig

open Buzz.OutMsg

/-- `struct buzzvstig_s` (buzzvstig.h): the entries, the conflict manager, and whether a lost-conflict hook is set. -/
structure Vs (K D : Type) where
  data : List (K × Elem D)
  onconflict : Option (K → Elem D → Elem D → Option (D × Nat))
  hook : Bool

/-- `buzzvstig_new` (buzzvstig.c 92-104). -/
def Vs.new {K D : Type} : Vs K D := ⟨[], none, false⟩

/-- The part of the VM the stigmergy code uses: robot id, stigmergies, output queue; and the hook calls made so far. -/
structure St (B K D : Type) where
  me : Nat
  vstigs : List (Nat × Vs K D)
  out : Q B K D
  lost : List (Nat × K × Elem D)

variable {B K D : Type} [DecidableEq K] [DecidableEq D]

/-- `buzzvstig_create` (155-186) as far as the stigmergy is concerned. -/
def create (s : St B K D) (id : Nat) : St B K D :=
  { s with vstigs := FMap.set (FMap.del s.vstigs id) id Vs.new }

/-- `buzzoutmsg_queue_append_vstig` on the state. -/
def queue (s : St B K D) (t : VType) (id : Nat) (k : K) (e : Elem D) : Res (St B K D) := do
  let out ← appendVstig s.out t id k e
  pure { s with out := out }

/-- `buzzvstig_store` (buzzvstig.h 195). -/
def store (s : St B K D) (id : Nat) (vs : Vs K D) (k : K) (e : Elem D) : St B K D :=
  { s with vstigs := FMap.set s.vstigs id { vs with data := FMap.set vs.data k e } }

/-- `buzzvstig_put` (191-239).  `nil` is the nil object; the timestamp is 16 bits wide. -/
def put (nil : D) (s : St B K D) (id : Nat) (k : K) (v : D) : Res (St B K D) :=
  match FMap.get s.vstigs id with
  | none => .ok s
  | some vs =>
    match FMap.get vs.data k with
    | some x =>
      if v ≠ nil then
        let e : Elem D := ⟨v, (x.ts + 1) % U16, s.me⟩
        queue (store s id vs k e) .put id k e
      else do
        let s ← queue s .put id k ⟨nil, (x.ts + 1) % U16, s.me⟩
        pure { s with vstigs := FMap.set s.vstigs id { vs with data := FMap.del vs.data k } }
    | none =>
      if v ≠ nil then
        let e : Elem D := ⟨v, 1, s.me⟩
        queue (store s id vs k e) .put id k e
      else .ok s

/-- `buzzvstig_get` (307-345): the value pushed and the new state. -/
def get (nil : D) (s : St B K D) (id : Nat) (k : K) : Res (D × St B K D) :=
  match FMap.get s.vstigs id with
  | none => .ok (nil, s)
  | some vs =>
    match FMap.get vs.data k with
    | some e => do
      let s ← queue s .query id k e
      pure (e.data, s)
    | none => do
      let s ← queue s .query id k ⟨nil, 0, s.me⟩
      pure (nil, s)

/-- `buzzvstig_size` (286-302). -/
def size (s : St B K D) (id : Nat) : Nat :=
  match FMap.get s.vstigs id with
  | none => 0
  | some vs => vs.data.length

/-- `buzzvstig_onconflict_call` (406-471). -/
def resolve (nil : D) (vs : Vs K D) (k : K) (lv rv : Elem D) : Option (Elem D) :=
  match vs.onconflict with
  | some f => (f k lv rv).map (fun r => ⟨r.1, lv.ts, r.2 % U16⟩)
  | none =>
    if (lv.data = nil ∧ rv.data = nil) ∨ (lv.data ≠ nil ∧ rv.data ≠ nil) then
      if lv.robot > rv.robot then some lv else some rv
    else if lv.data ≠ nil then some lv
    else if rv.data ≠ nil then some rv
    else none

/-- The conflict branch of both handlers (buzzvm.c 306-334, 395-424), with `buzzvstig_onconflictlost_call` (476-494). -/
def conflict (nil : D) (s : St B K D) (id : Nat) (vs : Vs K D) (k : K) (l v : Elem D) : Res (St B K D) :=
  match resolve nil vs k l v with
  | none => .ok s
  | some c =>
    let s := store s id vs k c
    let s := if (c.robot ≠ s.me ∧ l.robot = s.me) ∧ vs.hook then { s with lost := s.lost ++ [(id, k, l)] } else s
    queue s .put id k c

/-- `BUZZMSG_VSTIG_PUT` (buzzvm.c 276-343), message deserialised. -/
def recvPut (nil : D) (s : St B K D) (id : Nat) (k : K) (v : Elem D) : Res (St B K D) :=
  match FMap.get s.vstigs id with
  | none => .ok s
  | some vs =>
    match FMap.get vs.data k with
    | none => queue (store s id vs k v) .put id k v
    | some l =>
      if l.ts < v.ts then queue (store s id vs k v) .put id k v
      else if l.ts = v.ts ∧ l.robot ≠ v.robot then conflict nil s id vs k l v
      else .ok s

/-- `BUZZMSG_VSTIG_QUERY` (buzzvm.c 344-432), message deserialised. -/
def recvQuery (nil : D) (s : St B K D) (id : Nat) (k : K) (v : Elem D) : Res (St B K D) :=
  match FMap.get s.vstigs id with
  | none => queue s .query id k v
  | some vs =>
    match FMap.get vs.data k with
    | none =>
      if v.data = nil then queue s .query id k v
      else queue (store s id vs k v) .put id k v
    | some l =>
      if l.ts < v.ts then queue (store s id vs k v) .put id k v
      else if l.ts > v.ts then queue s .put id k l
      else if l.ts = v.ts ∧ l.robot ≠ v.robot then conflict nil s id vs k l v
      else .ok s

/-- Either message. -/
def recv (nil : D) (s : St B K D) (t : VType) (id : Nat) (k : K) (v : Elem D) : Res (St B K D) :=
  match t with
  | .put => recvPut nil s id k v
  | .query => recvQuery nil s id k v

/-! ### Lemmas -/

/-- The entry a robot holds. -/
def entry (s : St B K D) (id : Nat) (k : K) : Option (Elem D) := (FMap.get s.vstigs id).bind (fun vs => FMap.get vs.data k)

/-- The message for a key waiting in the queue. -/
def waitingMsg (s : St B K D) (id : Nat) (k : K) : Option (VType × Elem D) :=
  (queued s.out id k).map (fun m => (m.type, m.elem))

/-- What appending does to the waiting messages: the message replaces an older one. -/
theorem queue_spec {s : St B K D} (v : Inv s.out) (t : VType) (id : Nat) (k : K) (e : Elem D) :
    ∃ s', queue s t id k e = .ok s' ∧ Inv s'.out ∧ s'.me = s.me ∧ s'.vstigs = s.vstigs ∧ s'.lost = s.lost ∧
      (∀ id' k', waitingMsg s' id' k' = if id' = id ∧ k' = k ∧ (∀ x, waitingMsg s id k = some x → x.2.ts < e.ts) then some (t, e)
        else waitingMsg s id' k') := by
  rcases appendVstig_spec v t id k e with ⟨m, hq, hts, h1⟩ | ⟨hlt, q', h1, v', _, _, _, _, _, _, hmem⟩
  · refine ⟨s, by simp [queue, h1], v, rfl, rfl, rfl, ?_⟩
    intro id' k'
    rw [if_neg]
    rintro ⟨rfl, rfl, h⟩
    have := h (m.type, m.elem) (by simp [waitingMsg, hq])
    simp only at this
    omega
  · refine ⟨{ s with out := q' }, by simp [queue, h1], v', rfl, rfl, rfl, ?_⟩
    intro id' k'
    by_cases hc : id' = id ∧ k' = k
    · obtain ⟨rfl, rfl⟩ := hc
      rw [if_pos]
      · have : queued q' id' k' = some ⟨s.out.brk, t, id', k', e⟩ :=
          (queued_iff v' _ _ _).mpr ⟨(hmem _).mpr (.inr rfl), rfl, rfl⟩
        simp [waitingMsg, this]
      · refine ⟨rfl, rfl, ?_⟩
        intro x hx
        simp only [waitingMsg, Option.map_eq_some_iff] at hx
        obtain ⟨m, hm, rfl⟩ := hx
        exact hlt m hm
    · rw [if_neg (fun h => hc ⟨h.1, h.2.1⟩)]
      have : queued q' id' k' = queued s.out id' k' := by
        apply Option.ext
        intro m
        rw [queued_iff v', queued_iff v, hmem]
        constructor
        · rintro ⟨h | rfl, h2, h3⟩
          · exact ⟨h.1, h2, h3⟩
          · exact absurd ⟨h2.symm, h3.symm⟩ hc
        · rintro ⟨h, h2, h3⟩
          exact ⟨.inl ⟨h, by rw [h2, h3]; exact hc⟩, h2, h3⟩
      simp [waitingMsg, this]

theorem entry_store {s : St B K D} {id : Nat} {vs : Vs K D} (h : FMap.get s.vstigs id = some vs) (k : K) (e : Elem D) (id' : Nat) (k' : K) :
    entry (store s id vs k e) id' k' = if id' = id ∧ k' = k then some e else entry s id' k' := by
  unfold entry store
  simp only [FMap.get_set]
  by_cases h1 : id' = id
  · subst h1
    simp [FMap.get_set, h]
  · simp [h1]

theorem entry_congr {s s' : St B K D} (h : s'.vstigs = s.vstigs) (id : Nat) (k : K) : entry s' id k = entry s id k := by
  unfold entry; rw [h]

/-- Does the robot have this stigmergy, with the default conflict manager? -/
def Plain (s : St B K D) (id : Nat) : Prop := ∃ vs, FMap.get s.vstigs id = some vs ∧ vs.onconflict = none

/-- Which entry wins by default on equal timestamps and different robots. -/
def winner (nil : D) (l v : Elem D) : Elem D :=
  if (l.data = nil ↔ v.data = nil) then (if l.robot > v.robot then l else v) else if v.data = nil then l else v

theorem resolve_default (nil : D) {vs : Vs K D} (h : vs.onconflict = none) (k : K) (l v : Elem D) :
    resolve nil vs k l v = some (winner nil l v) := by
  unfold resolve winner
  rw [h]
  by_cases h1 : l.data = nil <;> by_cases h2 : v.data = nil <;> by_cases h3 : l.robot > v.robot <;> simp [h1, h2, h3]

/-- The entry after a message, given the entry before. -/
def merge (nil : D) (o : Option (Elem D)) (v : Elem D) : Elem D :=
  match o with
  | none => v
  | some l => if l.ts < v.ts then v else if l.ts = v.ts ∧ l.robot ≠ v.robot then winner nil l v else l

/-- The state changed at most at `(id, k)` and the waiting messages. -/
structure Upd (s s' : St B K D) (id : Nat) (k : K) (o : Option (Elem D)) (from_ : VType × Elem D → Prop) : Prop where
  inv : Inv s'.out
  me : s'.me = s.me
  has : ∀ id', (FMap.get s'.vstigs id').isSome = (FMap.get s.vstigs id').isSome
  plain : ∀ id', Plain s id' → Plain s' id'
  entry : ∀ id' k', entry s' id' k' = if id' = id ∧ k' = k then o else entry s id' k'
  others : ∀ id' k', ¬ (id' = id ∧ k' = k) → waitingMsg s' id' k' = waitingMsg s id' k'
  msgs : waitingMsg s' id k = waitingMsg s id k ∨
    ∃ x, from_ x ∧ waitingMsg s' id k = some x ∧ ∀ y, waitingMsg s id k = some y → y.2.ts < x.2.ts

theorem plain_congr {s s' : St B K D} (h : s'.vstigs = s.vstigs) {id : Nat} : Plain s' id ↔ Plain s id := by
  unfold Plain; rw [h]

/-- Queueing only. -/
theorem queue_upd {s : St B K D} (v : Inv s.out) (t : VType) (id : Nat) (k : K) (e : Elem D) :
    ∃ s', queue s t id k e = .ok s' ∧ Upd s s' id k (entry s id k) (fun x => x = (t, e)) ∧ s'.lost = s.lost := by
  obtain ⟨s', h1, h2, h3, h4, h5, h6⟩ := queue_spec v t id k e
  refine ⟨s', h1, ⟨h2, h3, by simp [h4], fun id' h => (plain_congr h4).mpr h, ?_, ?_, ?_⟩, h5⟩
  · intro id' k'
    rw [entry_congr h4]
    split
    · rename_i h; rw [h.1, h.2]
    · rfl
  · intro id' k' h
    rw [h6, if_neg (fun g => h ⟨g.1, g.2.1⟩)]
  · rw [h6]
    split
    · rename_i h; exact .inr ⟨_, rfl, rfl, h.2.2⟩
    · exact .inl rfl

/-- Storing, then queueing (the hook may be called in between). -/
theorem store_queue_upd {s : St B K D} (v : Inv s.out) {id : Nat} {vs : Vs K D} (h : FMap.get s.vstigs id = some vs)
    (t : VType) (k : K) (e : Elem D) (lost : List (Nat × K × Elem D)) :
    ∃ s', queue { store s id vs k e with lost := lost } t id k e = .ok s' ∧ Upd s s' id k (some e) (fun x => x = (t, e)) ∧
      s'.lost = lost := by
  obtain ⟨s', h1, h2, h3⟩ := queue_upd (s := { store s id vs k e with lost := lost }) v t id k e
  refine ⟨s', h1, ⟨h2.inv, h2.me, ?_, ?_, ?_, h2.others, h2.msgs⟩, h3⟩
  · intro id'
    rw [h2.has]
    simp only [store, FMap.get_set]
    by_cases hc : id' = id
    · simp [hc, h]
    · simp [hc]
  · rintro id' ⟨vs', hv, hn⟩
    apply h2.plain
    by_cases hc : id' = id
    · subst hc
      rw [h] at hv; cases hv
      exact ⟨{ vs with data := FMap.set vs.data k e }, by simp [store, FMap.get_set], hn⟩
    · exact ⟨vs', by simp [store, FMap.get_set, hc, hv], hn⟩
  · intro id' k'
    have e0 : ∀ id' k', Vstig.entry { store s id vs k e with lost := lost } id' k' = if id' = id ∧ k' = k then some e else Vstig.entry s id' k' :=
      fun id' k' => entry_store h k e id' k'
    rw [h2.entry, e0, e0]
    by_cases hc : id' = id ∧ k' = k <;> simp [hc]

/-- Receiving a put message with the default manager. -/
theorem recvPut_upd (nil : D) {s : St B K D} (w : Inv s.out) {id : Nat} (hp : Plain s id) (k : K) (v : Elem D) :
    ∃ s', recvPut nil s id k v = .ok s' ∧ Upd s s' id k (some (merge nil (entry s id k) v))
      (fun x => x = (.put, merge nil (entry s id k) v)) := by
  obtain ⟨vs, hvs, hn⟩ := hp
  have he : entry s id k = FMap.get vs.data k := by simp [entry, hvs]
  have same : merge nil (entry s id k) v = v → ∃ s', queue (store s id vs k v) .put id k v = .ok s' ∧
      Upd s s' id k (some (merge nil (entry s id k) v)) (fun x => x = (.put, merge nil (entry s id k) v)) := by
    intro hm
    rw [hm]
    obtain ⟨s', h1, h2, _⟩ := store_queue_upd w hvs .put k v s.lost
    exact ⟨s', h1, h2⟩
  unfold recvPut
  rw [hvs]
  simp only
  cases hl : FMap.get vs.data k with
  | none =>
    have := same (by rw [he, hl]; rfl)
    rw [he, hl] at this
    rw [he, hl]; exact this
  | some l =>
    rw [he, hl] at same ⊢
    simp only
    by_cases h1 : l.ts < v.ts
    · rw [if_pos h1]; exact same (by simp [merge, h1])
    · rw [if_neg h1]
      by_cases h2 : l.ts = v.ts ∧ l.robot ≠ v.robot
      · rw [if_pos h2]
        have hm : merge nil (some l) v = winner nil l v := by simp only [merge]; rw [if_neg h1, if_pos h2]
        rw [hm]
        unfold conflict
        rw [resolve_default nil hn]
        simp only
        split
        · obtain ⟨s', h3, h4, _⟩ := store_queue_upd w hvs .put k (winner nil l v) (s.lost ++ [(id, k, l)])
          exact ⟨s', h3, h4⟩
        · obtain ⟨s', h3, h4, _⟩ := store_queue_upd w hvs .put k (winner nil l v) s.lost
          exact ⟨s', h3, h4⟩
      · rw [if_neg h2]
        have hm : merge nil (some l) v = l := by simp only [merge]; rw [if_neg h1, if_neg h2]
        refine ⟨s, rfl, ⟨w, rfl, fun _ => rfl, fun _ h => h, ?_, fun _ _ _ => rfl, .inl rfl⟩⟩
        intro id' k'
        rw [hm]
        split
        · rename_i h; rw [h.1, h.2, he, hl]
        · rfl

/-- Receiving a query with the default manager. -/
theorem recvQuery_upd (nil : D) {s : St B K D} (w : Inv s.out) {id : Nat} (hp : Plain s id) (k : K) (v : Elem D) :
    ∃ s', recvQuery nil s id k v = .ok s' ∧
      ((entry s id k = none ∧ v.data = nil ∧ Upd s s' id k none (fun x => x = (.query, v))) ∨
       (¬ (entry s id k = none ∧ v.data = nil) ∧ Upd s s' id k (some (merge nil (entry s id k) v))
        (fun x => x = (.put, merge nil (entry s id k) v)))) := by
  obtain ⟨vs, hvs, hn⟩ := hp
  have he : entry s id k = FMap.get vs.data k := by simp [entry, hvs]
  have hput := recvPut_upd nil w ⟨vs, hvs, hn⟩ k v
  unfold recvPut at hput
  unfold recvQuery
  rw [hvs] at hput ⊢
  simp only at hput ⊢
  cases hl : FMap.get vs.data k with
  | none =>
    rw [hl] at hput
    simp only at hput ⊢
    by_cases hv : v.data = nil
    · rw [if_pos hv]
      obtain ⟨s', h1, h2, _⟩ := queue_upd w .query id k v
      rw [he, hl] at h2
      exact ⟨s', h1, .inl ⟨by rw [he, hl], hv, h2⟩⟩
    · rw [if_neg hv]
      obtain ⟨s', h1, h2⟩ := hput
      exact ⟨s', h1, .inr ⟨fun h => hv h.2, h2⟩⟩
  | some l =>
    rw [hl] at hput
    simp only at hput ⊢
    have hne : ¬ (entry s id k = none ∧ v.data = nil) := by rw [he, hl]; simp
    by_cases h1 : l.ts < v.ts
    · rw [if_pos h1] at hput ⊢
      obtain ⟨s', h1, h2⟩ := hput
      exact ⟨s', h1, .inr ⟨hne, h2⟩⟩
    · rw [if_neg h1] at hput ⊢
      by_cases h2 : l.ts > v.ts
      · rw [if_pos h2]
        have hm : merge nil (entry s id k) v = l := by
          rw [he, hl]; simp only [merge]; rw [if_neg h1, if_neg (by omega)]
        obtain ⟨s', h3, h4, _⟩ := queue_upd w .put id k l
        refine ⟨s', h3, .inr ⟨hne, ?_⟩⟩
        rw [hm]
        rw [he, hl] at h4
        exact h4
      · rw [if_neg h2]
        obtain ⟨s', h3, h4⟩ := hput
        exact ⟨s', h3, .inr ⟨hne, h4⟩⟩

/-- Writing a non-nil value. -/
theorem put_upd (nil : D) {s : St B K D} (w : Inv s.out) {id : Nat} {vs : Vs K D} (hvs : FMap.get s.vstigs id = some vs) (k : K) (d : D)
    (hd : d ≠ nil) :
    ∃ s' e, put nil s id k d = .ok s' ∧ e = ⟨d, (match entry s id k with | some x => (x.ts + 1) % U16 | none => 1), s.me⟩ ∧
      Upd s s' id k (some e) (fun x => x = (.put, e)) ∧ s'.lost = s.lost := by
  have he : entry s id k = FMap.get vs.data k := by simp [entry, hvs]
  unfold put
  rw [hvs]
  simp only
  cases hl : FMap.get vs.data k with
  | none =>
    rw [he, hl]
    simp only
    rw [if_pos hd]
    obtain ⟨s', h1, h2, h3⟩ := store_queue_upd w hvs .put k ⟨d, 1, s.me⟩ s.lost
    exact ⟨s', _, h1, rfl, h2, h3⟩
  | some x =>
    rw [he, hl]
    simp only
    rw [if_pos hd]
    obtain ⟨s', h1, h2, h3⟩ := store_queue_upd w hvs .put k ⟨d, (x.ts + 1) % U16, s.me⟩ s.lost
    exact ⟨s', _, h1, rfl, h2, h3⟩

/-- Reading. -/
theorem get_upd (nil : D) {s : St B K D} (w : Inv s.out) {id : Nat} {vs : Vs K D} (hvs : FMap.get s.vstigs id = some vs) (k : K) :
    ∃ s', get nil s id k = .ok (((entry s id k).map (·.data)).getD nil, s') ∧
      Upd s s' id k (entry s id k) (fun x => x = (.query, (entry s id k).getD ⟨nil, 0, s.me⟩)) ∧ s'.lost = s.lost := by
  have he : entry s id k = FMap.get vs.data k := by simp [entry, hvs]
  unfold get
  rw [hvs]
  simp only
  cases hl : FMap.get vs.data k with
  | none =>
    rw [he, hl]
    simp only
    obtain ⟨s', h1, h2, h3⟩ := queue_upd w .query id k ⟨nil, 0, s.me⟩
    rw [he, hl] at h2
    exact ⟨s', by simp [h1], h2, h3⟩
  | some x =>
    rw [he, hl]
    simp only
    obtain ⟨s', h1, h2, h3⟩ := queue_upd w .query id k x
    rw [he, hl] at h2
    exact ⟨s', by simp [h1], h2, h3⟩

/-- A message for one key concerns that key only, whatever the conflict manager. -/
theorem recv_frame (nil : D) {s s' : St B K D} (w : Inv s.out) {t : VType} {id : Nat} {k : K} {v : Elem D}
    (h : recv nil s t id k v = .ok s') : ∃ o f, Upd s s' id k o f := by
  have same : ∃ o f, Upd s s id k o f :=
    ⟨entry s id k, fun _ => True, ⟨w, rfl, fun _ => rfl, fun _ h => h, by
      intro id' k'; split
      · rename_i h; rw [h.1, h.2]
      · rfl, fun _ _ _ => rfl, .inl rfl⟩⟩
  have q : ∀ t e, queue s t id k e = .ok s' → ∃ o f, Upd s s' id k o f := by
    intro t e h
    obtain ⟨s1, h1, h2, _⟩ := queue_upd w t id k e
    rw [h1] at h; cases h; exact ⟨_, _, h2⟩
  have sq : ∀ vs, FMap.get s.vstigs id = some vs → ∀ e lost, queue { store s id vs k e with lost := lost } .put id k e = .ok s' →
      ∃ o f, Upd s s' id k o f := by
    intro vs hvs e lost h
    obtain ⟨s1, h1, h2, _⟩ := store_queue_upd w hvs .put k e lost
    rw [h1] at h; cases h; exact ⟨_, _, h2⟩
  have cf : ∀ vs, FMap.get s.vstigs id = some vs → ∀ l v, conflict nil s id vs k l v = .ok s' → ∃ o f, Upd s s' id k o f := by
    intro vs hvs l v h
    unfold conflict at h
    split at h
    · cases h; exact same
    · simp only at h
      split at h
      · exact sq vs hvs _ _ h
      · exact sq vs hvs _ s.lost h
  cases t
  · simp only [recv, recvPut] at h
    cases hvs : FMap.get s.vstigs id with
    | none => rw [hvs] at h; cases h; exact same
    | some vs =>
      rw [hvs] at h
      simp only at h
      split at h
      · exact sq vs hvs _ s.lost h
      · split at h
        · exact sq vs hvs _ s.lost h
        · split at h
          · exact cf vs hvs _ _ h
          · cases h; exact same
  · simp only [recv, recvQuery] at h
    cases hvs : FMap.get s.vstigs id with
    | none => rw [hvs] at h; exact q _ _ h
    | some vs =>
      rw [hvs] at h
      simp only at h
      split at h
      · split at h
        · exact q _ _ h
        · exact sq vs hvs _ s.lost h
      · split at h
        · exact sq vs hvs _ s.lost h
        · split at h
          · exact q _ _ h
          · split at h
            · exact cf vs hvs _ _ h
            · cases h; exact same

/-- So do writing and deleting. -/
theorem put_frame (nil : D) {s s' : St B K D} (w : Inv s.out) {id : Nat} {k : K} {v : D}
    (h : put nil s id k v = .ok s') : ∃ o f, Upd s s' id k o f := by
  have same : ∃ o f, Upd s s id k o f :=
    ⟨entry s id k, fun _ => True, ⟨w, rfl, fun _ => rfl, fun _ h => h, by
      intro id' k'; split
      · rename_i h; rw [h.1, h.2]
      · rfl, fun _ _ _ => rfl, .inl rfl⟩⟩
  by_cases hv : v = nil
  · subst hv
    unfold put at h
    cases hvs : FMap.get s.vstigs id with
    | none => rw [hvs] at h; cases h; exact same
    | some vs =>
      rw [hvs] at h
      simp only at h
      split at h
      · rename_i x hx
        rw [if_neg (by simp)] at h
        obtain ⟨s1, h1, h2, h3⟩ := queue_upd w .put id k ⟨v, (x.ts + 1) % U16, s.me⟩
        obtain ⟨s1', h1', _, _, h4, _⟩ := queue_spec w .put id k ⟨v, (x.ts + 1) % U16, s.me⟩
        rw [h1] at h1'; cases h1'
        rw [h1] at h
        simp only [Res.ok_bind] at h
        cases h
        refine ⟨none, _, ⟨h2.inv, h2.me, ?_, ?_, ?_, h2.others, h2.msgs⟩⟩
        · intro id'
          simp only [FMap.get_set, h4]
          by_cases hc : id' = id
          · simp [hc, hvs]
          · simp [hc]
        · rintro id' ⟨vs', hv', hn⟩
          by_cases hc : id' = id
          · subst hc
            rw [hvs] at hv'; cases hv'
            exact ⟨{ vs with data := FMap.del vs.data k }, by simp [FMap.get_set], hn⟩
          · exact ⟨vs', by simp [FMap.get_set, hc, h4, hv'], hn⟩
        · intro id' k'
          unfold Vstig.entry
          simp only [FMap.get_set, h4]
          by_cases hc : id' = id
          · subst hc
            simp [FMap.get_del, hvs]
          · simp [hc]
      · rw [if_neg (by simp)] at h
        cases h; exact same
  · cases hvs : FMap.get s.vstigs id with
    | none => simp only [put, hvs] at h; cases h; exact same
    | some vs =>
      obtain ⟨s1, e, h1, _, h2, _⟩ := put_upd nil w hvs k v hv
      rw [h1] at h; cases h; exact ⟨_, _, h2⟩

/-- So does reading. -/
theorem get_frame (nil : D) {s s' : St B K D} (w : Inv s.out) {id : Nat} {k : K} {v : D}
    (h : get nil s id k = .ok (v, s')) : ∃ o f, Upd s s' id k o f := by
  cases hvs : FMap.get s.vstigs id with
  | none =>
    simp only [get, hvs] at h
    cases h
    exact ⟨entry s id k, fun _ => True, ⟨w, rfl, fun _ => rfl, fun _ h => h, by
      intro id' k'; split
      · rename_i h; rw [h.1, h.2]
      · rfl, fun _ _ _ => rfl, .inl rfl⟩⟩
  | some vs =>
    obtain ⟨s1, h1, h2, _⟩ := get_upd nil w hvs k
    rw [h1] at h; cases h; exact ⟨_, _, h2⟩

end Buzz.Vstig
