import Verif.Vstig
import Verif.Props.Queues

/-
Properties C23 to C27: virtual stigmergy.
-/
namespace Buzz.Props

open Buzz.OutMsg Buzz.Vstig

section Stigmergy

variable {B K D : Type} [DecidableEq K] [DecidableEq D]

/-! #### C23 -/

/-- The order of entries: newer timestamp, then non-nil, then robot id. -/
def Older (nil : D) (a b : Elem D) : Prop :=
  a.ts < b.ts ∨ a.ts = b.ts ∧ ((a.data = nil ∧ b.data ≠ nil) ∨ ((a.data = nil ↔ b.data = nil) ∧ a.robot ≤ b.robot))

/-- Entries with the same timestamp and robot are the same entry. -/
def Coherent (S : Elem D → Prop) : Prop := ∀ a b, S a → S b → a.ts = b.ts → a.robot = b.robot → a = b

theorem older_refl (nil : D) (a : Elem D) : Older nil a a := .inr ⟨rfl, .inr ⟨Iff.rfl, Nat.le_refl _⟩⟩

theorem older_trans (nil : D) {a b c : Elem D} (h : Older nil a b) (h' : Older nil b c) : Older nil a c := by
  unfold Older at *
  by_cases ha : a.data = nil <;> by_cases hb : b.data = nil <;> by_cases hc : c.data = nil <;> simp_all <;> omega

theorem older_antisymm (nil : D) {S : Elem D → Prop} (hS : Coherent S) {a b : Elem D} (ha : S a) (hb : S b) (h : Older nil a b)
    (h' : Older nil b a) : a = b := by
  apply hS a b ha hb
  · unfold Older at *; omega
  · unfold Older at *
    by_cases ha : a.data = nil <;> by_cases hb : b.data = nil <;> simp_all <;> omega

/-- A merge returns one of the two, not older than either. -/
theorem merge_max (nil : D) (l v : Elem D) (hc : l.ts = v.ts → l.robot = v.robot → l = v) :
    (merge nil (some l) v = l ∨ merge nil (some l) v = v) ∧ Older nil l (merge nil (some l) v) ∧
      Older nil v (merge nil (some l) v) := by
  simp only [merge]
  by_cases h1 : l.ts < v.ts
  · rw [if_pos h1]; exact ⟨.inr rfl, .inl h1, older_refl nil v⟩
  · rw [if_neg h1]
    by_cases h2 : l.ts = v.ts ∧ l.robot ≠ v.robot
    · rw [if_pos h2]
      obtain ⟨h3, h4⟩ := h2
      unfold winner Older
      by_cases hl : l.data = nil <;> by_cases hv : v.data = nil <;> by_cases hr : l.robot > v.robot <;> simp [hl, hv, hr, h3] <;> omega
    · rw [if_neg h2]
      refine ⟨.inl rfl, older_refl nil l, ?_⟩
      by_cases h3 : l.ts = v.ts
      · have h4 : l.robot = v.robot := by by_contra h; exact h2 ⟨h3, h⟩
        rw [hc h3 h4]; exact older_refl nil v
      · exact .inl (by omega)

/-- Receive put messages for a key one after the other. -/
def recvAll (nil : D) (s : St B K D) (id : Nat) (k : K) : List (Elem D) → Res (St B K D)
  | [] => .ok s
  | e :: es => do
    let s ← recvPut nil s id k e
    recvAll nil s id k es

theorem recvAll_max (nil : D) (id : Nat) (k : K) (es : List (Elem D)) (s : St B K D) (w : Inv s.out) (hp : Plain s id)
    (hS : Coherent (fun e => e ∈ es ∨ Vstig.entry s id k = some e)) :
    ∃ s', recvAll nil s id k es = .ok s' ∧ (∀ e, Vstig.entry s' id k = some e → e ∈ es ∨ Vstig.entry s id k = some e) ∧
      (∀ x, (x ∈ es ∨ Vstig.entry s id k = some x) → ∃ e, Vstig.entry s' id k = some e ∧ Older nil x e) ∧
      ∀ id' k', ¬ (id' = id ∧ k' = k) → Vstig.entry s' id' k' = Vstig.entry s id' k' := by
  induction es generalizing s with
  | nil => exact ⟨s, rfl, fun e h => .inr h, fun x h => ⟨x, by simpa using h, older_refl nil x⟩, fun _ _ _ => rfl⟩
  | cons a es ih =>
    obtain ⟨s1, h1, u⟩ := recvPut_upd nil w hp k a
    have he : Vstig.entry s1 id k = some (merge nil (Vstig.entry s id k) a) := by rw [u.entry]; simp
    have hmem : merge nil (Vstig.entry s id k) a = a ∨ Vstig.entry s id k = some (merge nil (Vstig.entry s id k) a) := by
      cases hl : Vstig.entry s id k with
      | none => left; rfl
      | some l =>
        rcases (merge_max nil l a (fun h2 h3 => hS l a (.inr hl) (.inl (by simp)) h2 h3)).1 with h | h
        · right; rw [h]
        · left; exact h
    have hsub : ∀ x, (x ∈ es ∨ Vstig.entry s1 id k = some x) → (x ∈ a :: es ∨ Vstig.entry s id k = some x) := by
      rintro x (h | h)
      · exact .inl (List.mem_cons_of_mem _ h)
      · rw [he] at h
        cases h
        rcases hmem with h | h
        · left; rw [h]; simp
        · exact .inr h
    obtain ⟨s', h2, h3, h4, h5⟩ := ih s1 u.inv (u.plain id hp) (fun x y hx hy => hS x y (hsub x hx) (hsub y hy))
    refine ⟨s', by simp [recvAll, h1, h2], fun e h => hsub e (h3 e h), ?_, ?_⟩
    · intro x hx
      have hup : Older nil x (merge nil (Vstig.entry s id k) a) ∨ x ∈ es := by
        rcases hx with hx | hx
        · rcases List.mem_cons.mp hx with rfl | hx
          · left
            cases hl : Vstig.entry s id k with
            | none => exact older_refl nil _
            | some l => exact (merge_max nil l x (fun h2 h3 => hS l x (.inr hl) (.inl (by simp)) h2 h3)).2.2
          · exact .inr hx
        · left
          rw [hx]
          exact (merge_max nil x a (fun h2 h3 => hS x a (.inr hx) (.inl (by simp)) h2 h3)).2.1
      rcases hup with h | h
      · obtain ⟨e, h6, h7⟩ := h4 _ (.inr he)
        exact ⟨e, h6, older_trans nil h h7⟩
      · exact h4 x (.inl h)
    · intro id' k' hne
      rw [h5 id' k' hne, u.entry, if_neg hne]

/-- C23.  With the default conflict manager the entry held after any messages is the greatest of those received and the one
held before; it does not depend on their order or on repetitions, and no other key changes. -/
theorem C23_merge (nil : D) (id : Nat) (k : K) (es es' : List (Elem D)) (s : St B K D) (w : Inv s.out) (hp : Plain s id)
    (hS : Coherent (fun e => e ∈ es ∨ Vstig.entry s id k = some e)) (hsame : ∀ e, e ∈ es ↔ e ∈ es') :
    ∃ s' s'', recvAll nil s id k es = .ok s' ∧ recvAll nil s id k es' = .ok s'' ∧
      Vstig.entry s' id k = Vstig.entry s'' id k ∧
      (∀ x, (x ∈ es ∨ Vstig.entry s id k = some x) → ∃ e, Vstig.entry s' id k = some e ∧ Older nil x e) ∧
      (∀ e, Vstig.entry s' id k = some e → e ∈ es ∨ Vstig.entry s id k = some e) ∧
      ∀ id' k', ¬ (id' = id ∧ k' = k) → Vstig.entry s' id' k' = Vstig.entry s id' k' := by
  have hS' : Coherent (fun e => e ∈ es' ∨ Vstig.entry s id k = some e) := by
    intro a b ha hb
    exact hS a b (by simpa only [hsame] using ha) (by simpa only [hsame] using hb)
  obtain ⟨s', h1, h2, h3, h4⟩ := recvAll_max nil id k es s w hp hS
  obtain ⟨s'', g1, g2, g3, _⟩ := recvAll_max nil id k es' s w hp hS'
  refine ⟨s', s'', h1, g1, ?_, h3, h2, h4⟩
  cases he : Vstig.entry s' id k with
  | none =>
    cases he' : Vstig.entry s'' id k with
    | none => rfl
    | some b =>
      obtain ⟨e, h5, _⟩ := h3 b (by rw [hsame]; exact g2 b he')
      rw [he] at h5; cases h5
  | some a =>
    have ha := h2 a he
    obtain ⟨b, hb, hab⟩ := g3 a (by rw [← hsame]; exact ha)
    have hb' := g2 b hb
    rw [← hsame] at hb'
    obtain ⟨a', ha', hba⟩ := h3 b hb'
    rw [he] at ha'
    cases ha'
    rw [hb, older_antisymm nil hS ha hb' hab hba]

/-- The order is total, so "greatest" says everything. -/
theorem C23_order_total (nil : D) (a b : Elem D) : Older nil a b ∨ Older nil b a := by
  unfold Older
  by_cases ha : a.data = nil <;> by_cases hb : b.data = nil <;> simp [ha, hb] <;> omega

/-- Without coherence the result depends on the order. -/
theorem C23_needs_coherence : ∃ (s s' s'' : St Nat Nat Nat) (a b : Elem Nat), Inv s.out ∧ Plain s 1 ∧
    recvAll 0 s 1 5 [a, b] = .ok s' ∧ recvAll 0 s 1 5 [b, a] = .ok s'' ∧ Vstig.entry s' 1 5 ≠ Vstig.entry s'' 1 5 :=
  ⟨⟨3, [(1, Vs.new)], new, []⟩, _, _, ⟨7, 2, 4⟩, ⟨8, 2, 4⟩, new_inv, ⟨Vs.new, rfl, rfl⟩, rfl, rfl, by decide⟩

/-- Three messages in two orders, one repeated. -/
example : ((recvAll 0 (⟨3, [(1, Vs.new)], new, []⟩ : St Nat Nat Nat) 1 5 [⟨7, 2, 4⟩, ⟨9, 2, 6⟩, ⟨0, 2, 8⟩]).bind
    fun s => .ok (Vstig.entry s 1 5)) = .ok (some ⟨9, 2, 6⟩) ∧
  ((recvAll 0 (⟨3, [(1, Vs.new)], new, []⟩ : St Nat Nat Nat) 1 5 [⟨0, 2, 8⟩, ⟨9, 2, 6⟩, ⟨7, 2, 4⟩, ⟨0, 2, 8⟩]).bind
    fun s => .ok (Vstig.entry s 1 5)) = .ok (some ⟨9, 2, 6⟩) := ⟨rfl, rfl⟩

/-! #### C26 -/

/-- The outcome of a conflict: winner stored, hook called or not, put message with the winner waiting unless a newer or equally
new one already waits. -/
structure Resolved (s s' : St B K D) (id : Nat) (k : K) (c : Elem D) (hooked : Option (Elem D)) : Prop where
  stored : Vstig.entry s' id k = some c
  others : ∀ id' k', ¬ (id' = id ∧ k' = k) → Vstig.entry s' id' k' = Vstig.entry s id' k'
  hook : s'.lost = s.lost ++ (hooked.toList.map (fun e => (id, k, e)))
  forwarded : waitingMsg s' id k = some (.put, c) ∨ ∃ x, waitingMsg s id k = some x ∧ c.ts ≤ x.2.ts ∧ waitingMsg s' id k = some x

/-- C26.  A message with the local timestamp but another robot is resolved thus: the non-nil entry if exactly one is nil, else
the one of the higher robot id; the hook runs exactly when the local entry was written by this robot and the winner was
not (and a hook is set); the winner is stored and forwarded.  Both message types behave alike. -/
theorem C26_default_conflict (nil : D) (t : VType) (s : St B K D) (w : Inv s.out) (id : Nat) (k : K) (vs : Vs K D)
    (hvs : FMap.get s.vstigs id = some vs) (hn : vs.onconflict = none) (l v : Elem D) (hl : Vstig.entry s id k = some l)
    (hts : l.ts = v.ts) (hr : l.robot ≠ v.robot) :
    ∃ s' c, Vstig.recv nil s t id k v = .ok s' ∧
      c = (if l.data ≠ nil ∧ v.data = nil then l else if l.data = nil ∧ v.data ≠ nil then v
        else if l.robot > v.robot then l else v) ∧
      Resolved s s' id k c (if l.robot = s.me ∧ c.robot ≠ s.me ∧ vs.hook = true then some l else none) := by
  have he : FMap.get vs.data k = some l := by rw [← hl]; simp [Vstig.entry, hvs]
  have hrc : Vstig.recv nil s t id k v = conflict nil s id vs k l v := by
    cases t
    · simp only [Vstig.recv, recvPut, hvs, he]
      rw [if_neg (by omega), if_pos ⟨hts, hr⟩]
    · simp only [Vstig.recv, recvQuery, hvs, he]
      rw [if_neg (by omega), if_neg (by omega), if_pos ⟨hts, hr⟩]
  have hw : winner nil l v = (if l.data ≠ nil ∧ v.data = nil then l else if l.data = nil ∧ v.data ≠ nil then v
        else if l.robot > v.robot then l else v) := by
    unfold winner
    by_cases h1 : l.data = nil <;> by_cases h2 : v.data = nil <;> simp [h1, h2]
  have fin : ∀ lost, ∃ s', queue { store s id vs k (winner nil l v) with lost := lost } .put id k (winner nil l v) = .ok s' ∧
      Vstig.entry s' id k = some (winner nil l v) ∧ (∀ id' k', ¬ (id' = id ∧ k' = k) → Vstig.entry s' id' k' = Vstig.entry s id' k') ∧
      s'.lost = lost ∧ (waitingMsg s' id k = some (.put, winner nil l v) ∨
        ∃ x, waitingMsg s id k = some x ∧ (winner nil l v).ts ≤ x.2.ts ∧ waitingMsg s' id k = some x) := by
    intro lost
    obtain ⟨s', h1, h2, h3, h4, h5, h6⟩ := queue_spec (s := { store s id vs k (winner nil l v) with lost := lost }) w .put id k (winner nil l v)
    have e0 : ∀ id' k', Vstig.entry s' id' k' = if id' = id ∧ k' = k then some (winner nil l v) else Vstig.entry s id' k' := by
      intro id' k'
      rw [entry_congr h4]
      exact entry_store hvs k _ id' k'
    refine ⟨s', h1, by rw [e0]; simp, fun id' k' h => by rw [e0, if_neg h], h5, ?_⟩
    have h6 := h6 id k
    by_cases hc : ∀ x, waitingMsg { store s id vs k (winner nil l v) with lost := lost } id k = some x → x.2.ts < (winner nil l v).ts
    · rw [if_pos ⟨rfl, rfl, hc⟩] at h6
      exact .inl h6
    · rw [if_neg (fun h => hc h.2.2)] at h6
      push Not at hc
      obtain ⟨x, hx1, hx2⟩ := hc
      right
      exact ⟨x, hx1, Nat.le_of_not_lt hx2, by rw [h6]; exact hx1⟩
  rw [hrc]
  unfold conflict
  rw [resolve_default nil hn]
  simp only
  by_cases hh : l.robot = s.me ∧ (winner nil l v).robot ≠ s.me ∧ vs.hook = true
  · obtain ⟨s', h1, h2, h3, h4, h5⟩ := fin (s.lost ++ [(id, k, l)])
    refine ⟨s', winner nil l v, ?_, hw, ⟨h2, h3, ?_, h5⟩⟩
    · rw [if_pos ⟨⟨hh.2.1, hh.1⟩, hh.2.2⟩]; exact h1
    · rw [h4, if_pos hh]; rfl
  · obtain ⟨s', h1, h2, h3, h4, h5⟩ := fin s.lost
    refine ⟨s', winner nil l v, ?_, hw, ⟨h2, h3, ?_, h5⟩⟩
    · rw [if_neg (fun h => hh ⟨h.1.2, h.1.1, h.2⟩)]; exact h1
    · rw [h4, if_neg hh]; simp

/-- Robot 3 loses its own entry to robot 6 and its hook is called with the old entry. -/
example : ((Vstig.recv 0 (⟨3, [(1, ⟨[(5, ⟨7, 2, 3⟩)], none, true⟩)], new, []⟩ : St Nat Nat Nat) .put 1 5 ⟨9, 2, 6⟩).bind
    fun s => .ok (Vstig.entry s 1 5, s.lost, waitingMsg s 1 5)) =
    .ok (some ⟨9, 2, 6⟩, [(1, 5, ⟨7, 2, 3⟩)], some (.put, ⟨9, 2, 6⟩)) := rfl

/-! #### C27 -/

/-- C27, writing.  A non-nil put makes the value readable, leaves other keys and stigmergies alone, and puts a message with
the next timestamp in the queue (unless one at least as new waits there). -/
theorem C27_put (nil : D) (s : St B K D) (w : Inv s.out) (id : Nat) (k : K) (vs : Vs K D) (hvs : FMap.get s.vstigs id = some vs)
    (d : D) (hd : d ≠ nil) :
    ∃ s' s'' e, Vstig.put nil s id k d = .ok s' ∧ Vstig.get nil s' id k = .ok (d, s'') ∧
      Vstig.entry s' id k = some e ∧ e.data = d ∧ e.robot = s.me ∧
      e.ts = (match Vstig.entry s id k with | some x => (x.ts + 1) % 65536 | none => 1) ∧
      (∀ id' k', ¬ (id' = id ∧ k' = k) → Vstig.entry s' id' k' = Vstig.entry s id' k') ∧
      ((∀ x, waitingMsg s id k = some x → x.2.ts < e.ts) → waitingMsg s' id k = some (.put, e)) := by
  obtain ⟨s', e, h1, h2, u, _⟩ := put_upd nil w hvs k d hd
  have hvs' : ∃ vs', FMap.get s'.vstigs id = some vs' := by
    have := u.has id
    rw [hvs] at this
    exact Option.isSome_iff_exists.mp (by simpa using this)
  obtain ⟨vs', hvs'⟩ := hvs'
  obtain ⟨s'', g1, _, _⟩ := get_upd nil u.inv hvs' k
  have he : Vstig.entry s' id k = some e := by rw [u.entry]; simp
  refine ⟨s', s'', e, h1, by rw [g1, he, h2]; rfl, he, by rw [h2], by rw [h2], by rw [h2]; rfl, ?_, ?_⟩
  · intro id' k' h; rw [u.entry, if_neg h]
  · intro hlt
    have hq : ∃ s1, Vstig.put nil s id k d = queue s1 .put id k e ∧ s1.out = s.out := by
      have hes : Vstig.entry s id k = FMap.get vs.data k := by simp [Vstig.entry, hvs]
      unfold Vstig.put
      rw [hvs]
      simp only
      cases hl : FMap.get vs.data k with
      | none => simp only [hd, ne_eq, not_false_eq_true, if_true]; rw [hes, hl] at h2; rw [h2]; exact ⟨_, rfl, rfl⟩
      | some x => simp only [hd, ne_eq, not_false_eq_true, if_true]; rw [hes, hl] at h2; rw [h2]; exact ⟨_, rfl, rfl⟩
    obtain ⟨s1, hq1, hq2⟩ := hq
    obtain ⟨s2, g2, _, _, _, _, g3⟩ := queue_spec (s := s1) (by rw [hq2]; exact w) .put id k e
    rw [hq1, g2] at h1
    cases h1
    have hws : waitingMsg s1 id k = waitingMsg s id k := by unfold waitingMsg; rw [hq2]
    rw [g3, if_pos]
    exact ⟨rfl, rfl, by rw [hws]; exact hlt⟩

/-- C27, deleting.  Putting nil makes the key read as nil and tells the others with the next timestamp. -/
theorem C27_put_nil (nil : D) (s : St B K D) (w : Inv s.out) (id : Nat) (k : K) (vs : Vs K D) (hvs : FMap.get s.vstigs id = some vs) :
    ∃ s' s'', Vstig.put nil s id k nil = .ok s' ∧ Vstig.get nil s' id k = .ok (nil, s'') ∧ Vstig.entry s' id k = none ∧
      (∀ id' k', ¬ (id' = id ∧ k' = k) → Vstig.entry s' id' k' = Vstig.entry s id' k') ∧
      ∀ x, Vstig.entry s id k = some x → (∀ y, waitingMsg s id k = some y → y.2.ts < (x.ts + 1) % 65536) →
        waitingMsg s' id k = some (.put, ⟨nil, (x.ts + 1) % 65536, s.me⟩) := by
  have hes : Vstig.entry s id k = FMap.get vs.data k := by simp [Vstig.entry, hvs]
  have rd : ∀ s' : St B K D, Inv s'.out → (∃ vs', FMap.get s'.vstigs id = some vs') → Vstig.entry s' id k = none →
      ∃ s'', Vstig.get nil s' id k = .ok (nil, s'') := by
    rintro s' w' ⟨vs', h'⟩ hn
    obtain ⟨s'', g1, _⟩ := get_upd nil w' h' k
    rw [hn] at g1
    exact ⟨s'', g1⟩
  unfold Vstig.put
  rw [hvs]
  simp only
  cases hl : FMap.get vs.data k with
  | none =>
    simp only [ne_eq, not_true_eq_false, if_false]
    obtain ⟨s'', h⟩ := rd s w ⟨vs, hvs⟩ (by rw [hes, hl])
    exact ⟨s, s'', rfl, h, by rw [hes, hl], fun _ _ _ => rfl, by rw [hes, hl]; simp⟩
  | some x =>
    simp only [ne_eq, not_true_eq_false, if_false]
    obtain ⟨s1, h1, h2, h3, h4, h5, h6⟩ := queue_spec w .put id k ⟨nil, (x.ts + 1) % U16, s.me⟩
    have hent : ∀ id' k', Vstig.entry { s1 with vstigs := FMap.set s1.vstigs id { vs with data := FMap.del vs.data k } } id' k' =
        if id' = id ∧ k' = k then none else Vstig.entry s id' k' := by
      intro id' k'
      unfold Vstig.entry
      simp only [FMap.get_set, h4]
      by_cases hi : id' = id
      · subst hi
        simp only [if_true, Option.bind_some, FMap.get_del, true_and, hvs]
      · simp [hi]
    obtain ⟨s'', h⟩ := rd { s1 with vstigs := FMap.set s1.vstigs id { vs with data := FMap.del vs.data k } } h2
      ⟨_, by simp [FMap.get_set]; rfl⟩ (by rw [hent]; simp)
    refine ⟨_, s'', by rw [h1]; rfl, h, by rw [hent]; simp, fun id' k' hne => by rw [hent, if_neg hne], ?_⟩
    intro y hy hlt
    rw [hes, hl] at hy
    cases hy
    have := h6 id k
    rw [if_pos ⟨rfl, rfl, hlt⟩] at this
    exact this

/-- C27, reading.  A get returns the stored value, nil if there is none, changes no entry, and queues a query carrying what
is known (timestamp 0 if nothing is). -/
theorem C27_get (nil : D) (s : St B K D) (w : Inv s.out) (id : Nat) (k : K) (vs : Vs K D) (hvs : FMap.get s.vstigs id = some vs) :
    ∃ s', Vstig.get nil s id k = .ok (((Vstig.entry s id k).map (·.data)).getD nil, s') ∧
      (∀ id' k', Vstig.entry s' id' k' = Vstig.entry s id' k') ∧
      (waitingMsg s id k = none → waitingMsg s' id k = some (.query, (Vstig.entry s id k).getD ⟨nil, 0, s.me⟩)) := by
  obtain ⟨s', h1, u, _⟩ := get_upd nil w hvs k
  refine ⟨s', h1, ?_, ?_⟩
  · intro id' k'
    rw [u.entry]
    split
    · rename_i h; rw [h.1, h.2]
    · rfl
  · intro hno
    have hes : Vstig.entry s id k = FMap.get vs.data k := by simp [Vstig.entry, hvs]
    have hq : ∃ r, Vstig.get nil s id k = (queue s .query id k ((Vstig.entry s id k).getD ⟨nil, 0, s.me⟩)).bind (fun s => .ok (r, s)) := by
      unfold Vstig.get
      rw [hvs, hes]
      cases hg : FMap.get vs.data k <;> simp only [hg] <;> exact ⟨_, rfl⟩
    obtain ⟨r, hq⟩ := hq
    obtain ⟨s2, g2, _, _, _, _, g3⟩ := queue_spec w .query id k ((Vstig.entry s id k).getD ⟨nil, 0, s.me⟩)
    rw [hq, g2] at h1
    change Res.ok _ = _ at h1
    simp only [Res.ok.injEq, Prod.mk.injEq] at h1
    rw [← h1.2, g3, if_pos]
    exact ⟨rfl, rfl, by rw [hno]; simp⟩

/-- C27, size: the number of keys with an entry. -/
theorem C27_size (s : St B K D) (id : Nat) (hok : ∀ vs, FMap.get s.vstigs id = some vs → FMap.Ok vs.data) :
    ∃ keys : List K, keys.Nodup ∧ (∀ k, k ∈ keys ↔ (Vstig.entry s id k).isSome) ∧ Vstig.size s id = keys.length := by
  unfold Vstig.size Vstig.entry
  cases h : FMap.get s.vstigs id with
  | none => exact ⟨[], by simp, by simp, rfl⟩
  | some vs =>
    refine ⟨vs.data.map Prod.fst, hok vs h, ?_, by simp⟩
    intro k
    simp only [Option.bind_some]
    constructor
    · intro hk
      obtain ⟨⟨k', e⟩, he, rfl⟩ := List.mem_map.mp hk
      rw [FMap.get_of_mem (hok vs h) he]; rfl
    · intro hs
      obtain ⟨e, he⟩ := Option.isSome_iff_exists.mp hs
      exact List.mem_map.mpr ⟨_, FMap.mem_of_get he, rfl⟩

example : ((Vstig.put 0 (⟨3, [(1, Vs.new)], new, []⟩ : St Nat Nat Nat) 1 5 70).bind fun s =>
    (Vstig.put 0 s 1 6 80).bind fun s => (Vstig.put 0 s 1 5 71).bind fun s =>
      .ok (Vstig.entry s 1 5, waitingMsg s 1 5, Vstig.size s 1)) = .ok (some ⟨71, 2, 3⟩, some (.put, ⟨71, 2, 3⟩), 2) := rfl

/-! #### C25 -/

/-- C25, resurrection.  Robot 3 writes, the message is delayed; robot 3 deletes the key and knows it as nil; the delayed (or
repeated) message of its own old value comes back and the deleted value is there again. -/
theorem C25_resurrection : ∃ s1 s2 s3 : St Nat Nat Nat, ∃ m,
    Vstig.put 0 ⟨3, [(1, Vs.new)], new, []⟩ 1 5 70 = .ok s1 ∧ waitingMsg s1 1 5 = some (.put, m) ∧
    Vstig.put 0 s1 1 5 0 = .ok s2 ∧ Vstig.entry s2 1 5 = none ∧
    recvPut 0 s2 1 5 m = .ok s3 ∧ Vstig.entry s3 1 5 = some ⟨70, 1, 3⟩ :=
  ⟨_, _, _, _, rfl, rfl, rfl, rfl, rfl, rfl⟩

/-- C25, divergence.  Robot 3 writes twice, deletes, and writes again: the new entry has timestamp 1.  Robot 4, which heard
the first three, holds a tombstone with timestamp 3 and ignores the newer value; all messages are delivered in order and the
two robots disagree for good. -/
theorem C25_divergence : ∃ a1 a2 a3 a4 b1 b2 b3 b4 : St Nat Nat Nat, ∃ m1 m2 m3 m4,
    Vstig.put 0 ⟨3, [(1, Vs.new)], new, []⟩ 1 5 70 = .ok a1 ∧ waitingMsg a1 1 5 = some (.put, m1) ∧
    Vstig.put 0 a1 1 5 71 = .ok a2 ∧ waitingMsg a2 1 5 = some (.put, m2) ∧
    Vstig.put 0 a2 1 5 0 = .ok a3 ∧ waitingMsg a3 1 5 = some (.put, m3) ∧
    (∃ q, next a3.out = .ok q ∧ Vstig.put 0 { a3 with out := q } 1 5 72 = .ok a4) ∧ waitingMsg a4 1 5 = some (.put, m4) ∧
    recvPut 0 ⟨4, [(1, Vs.new)], new, []⟩ 1 5 m1 = .ok b1 ∧ recvPut 0 b1 1 5 m2 = .ok b2 ∧ recvPut 0 b2 1 5 m3 = .ok b3 ∧
    recvPut 0 b3 1 5 m4 = .ok b4 ∧ Vstig.entry a4 1 5 = some ⟨72, 1, 3⟩ ∧ Vstig.entry b4 1 5 = some ⟨0, 3, 3⟩ :=
  ⟨_, _, _, _, _, _, _, _, _, _, _, _, rfl, rfl, rfl, rfl, rfl, rfl, ⟨_, rfl, rfl⟩, rfl, rfl, rfl, rfl, rfl, rfl, rfl⟩

/-- C25, wraparound.  At timestamp 65535 a put wraps to 0 and loses against the entry it replaced, elsewhere. -/
theorem C25_timestamp_wraps : ∃ s' : St Nat Nat Nat,
    Vstig.put 0 ⟨3, [(1, ⟨[(5, ⟨70, 65535, 3⟩)], none, false⟩)], new, []⟩ 1 5 71 = .ok s' ∧
    Vstig.entry s' 1 5 = some ⟨71, 0, 3⟩ ∧ ¬ Older 0 (⟨70, 65535, 3⟩ : Elem Nat) ⟨71, 0, 3⟩ :=
  ⟨_, rfl, rfl, by simp [Older]⟩

end Stigmergy

end Buzz.Props
