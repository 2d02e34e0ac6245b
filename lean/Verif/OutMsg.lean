import Verif.Basic
import Verif.FMap

/-
The output message queue, src/buzz/buzzoutmsg.c.

Arrays are lists (C01) and dictionaries finite maps (C03).  Messages are heap blocks: a stigmergy message carries the
address `ptr` it was allocated at, and the dictionary holds addresses.  `K` is the type of stigmergy keys up to
`buzzobj_cmp` (lawful keys, C13), `B` the content of a broadcast, `D` the data of an entry.
-/
namespace Buzz.OutMsg

/-- `struct buzzvstig_elem_s` (buzzvstig.h): value, timestamp and robot. -/
structure Elem (D : Type) where
  data : D
  ts : Nat
  robot : Nat
  deriving DecidableEq, Repr

/-- The two stigmergy message types (buzzmsg.h 17-18). -/
inductive VType where
  | put
  | query
  deriving DecidableEq, Repr

/-- The two swarm message types of `joinleave` (buzzmsg.h 19-20). -/
inductive SType where
  | join
  | leave
  deriving DecidableEq, Repr

/-- `struct buzzoutmsg_vstig_s` (buzzoutmsg.c 34-39) at address `ptr`. -/
structure VMsg (K D : Type) where
  ptr : Nat
  type : VType
  id : Nat
  key : K
  elem : Elem D
  deriving DecidableEq, Repr

/-- `struct buzzoutmsg_queue_s` (buzzoutmsg.h): the six queues and the dictionary of stigmergy messages.  `brk` is the next
address `malloc` returns. -/
structure Q (B K D : Type) where
  bc : List B
  list : List (List Nat)
  join : List Nat
  leave : List Nat
  put : List (VMsg K D)
  query : List (VMsg K D)
  vstig : List (Nat × List (K × Nat))
  brk : Nat

/-- What a queued message says. -/
inductive Msg (B K D : Type) where
  | broadcast (b : B)
  | list (ids : List Nat)
  | vstig (t : VType) (id : Nat) (key : K) (e : Elem D)
  | swarm (t : SType) (id : Nat)
  deriving DecidableEq, Repr

variable {B K D : Type} [DecidableEq K]

/-- `buzzoutmsg_queue_new` (96-111). -/
def new : Q B K D := ⟨[], [], [], [], [], [], [], 0⟩

/-- `buzzoutmsg_queue_size` (130-138). -/
def size (q : Q B K D) : Nat :=
  (q.bc.length + q.list.length + q.join.length + q.leave.length + q.put.length + q.query.length) % U32

/-- `buzzoutmsg_queue_append_broadcast` (143-153); `b` stands for the cloned topic and value. -/
def appendBroadcast (q : Q B K D) (b : B) : Q B K D := { q with bc := q.bc ++ [b] }

/-- `buzzoutmsg_queue_append_swarm_list` (182-208) with `dict_to_array` (164-180).  `ids` is the swarm dictionary in iteration
order: id and membership byte.  `sw.size` is 16 bits wide (202). -/
def appendList (q : Q B K D) (ids : List (Nat × Nat)) : Q B K D :=
  let a := (ids.filter (fun e => e.2 ≠ 0)).map (·.1)
  { q with list := [a.take (a.length % U16)], join := [], leave := [] }

/-- `append_to_swarm_queue` (213-242). -/
def appendTo (l : List Nat) (id : Nat) : List Nat :=
  if l.isEmpty then l ++ [id] else if l.any (· == id) then l else l ++ [id]

/-- `remove_from_swarm_queue` (244-254): the first match goes. -/
def removeFrom (l : List Nat) (id : Nat) : List Nat := l.erase id

/-- Update of a queued list message (265-289).  Growing past 65535 ids wraps the 16-bit size and then writes outside
the block (284-286). -/
def editList (l : List Nat) (t : SType) (id : Nat) : Res (List Nat) :=
  if id ∈ l then
    match t with
    | .leave => .ok (l.erase id)
    | .join => .ok l
  else
    match t with
    | .join => if l.length + 1 < U16 then .ok (l ++ [id]) else .ub
    | .leave => .ok l

/-- `buzzoutmsg_queue_append_swarm_joinleave` (256-306). -/
def appendSwarm (q : Q B K D) (t : SType) (id : Nat) : Res (Q B K D) :=
  match q.list with
  | l :: rest => do
    let l' ← editList l t id
    pure { q with list := l' :: rest }
  | [] =>
    match t with
    | .join => .ok { q with join := appendTo q.join id, leave := removeFrom q.leave id }
    | .leave => .ok { q with join := removeFrom q.join id, leave := appendTo q.leave id }

/-- The queue of a stigmergy message type. -/
def vq (q : Q B K D) : VType → List (VMsg K D)
  | .put => q.put
  | .query => q.query

/-- Replace that queue. -/
def setVq (q : Q B K D) (t : VType) (l : List (VMsg K D)) : Q B K D :=
  match t with
  | .put => { q with put := l }
  | .query => { q with query := l }

/-- Dereference a message pointer: the block must still be allocated. -/
def deref (q : Q B K D) (p : Nat) : Res (VMsg K D) :=
  match (q.put ++ q.query).find? (fun m => m.ptr == p) with
  | some m => .ok m
  | none => .ub

/-- Lines 346-359: create the message, update the dictionary, remove the old message `old`, push the new one. -/
def enqueue (q : Q B K D) (vs : List (K × Nat)) (t : VType) (id : Nat) (key : K) (e : Elem D)
    (old : Option (VType × Nat)) : Q B K D :=
  let m : VMsg K D := ⟨q.brk, t, id, key, e⟩
  let q := { q with brk := q.brk + 1, vstig := FMap.set q.vstig id (FMap.set vs key m.ptr) }
  let q := match old with
    | some (et, p) => setVq q et ((vq q et).eraseP (fun m => m.ptr == p))
    | none => q
  setVq q t (vq q t ++ [m])

/-- `buzzoutmsg_queue_append_vstig` (311-360). -/
def appendVstig (q : Q B K D) (t : VType) (id : Nat) (key : K) (e : Elem D) : Res (Q B K D) :=
  match FMap.get q.vstig id with
  | none => .ok (enqueue q [] t id key e none)
  | some vs =>
    match FMap.get vs key with
    | none => .ok (enqueue q vs t id key e none)
    | some p => do
      let m ← deref q p
      if m.elem.ts ≥ e.ts then pure q else pure (enqueue q vs t id key e (some (m.type, p)))

/-- `buzzoutmsg_queue_first` (365-441): what the serialised message says. -/
def first (q : Q B K D) : Option (Msg B K D) :=
  match q.bc with
  | b :: _ => some (.broadcast b)
  | [] => match q.list with
  | l :: _ => some (.list l)
  | [] => match q.put with
  | m :: _ => some (.vstig .put m.id m.key m.elem)
  | [] => match q.query with
  | m :: _ => some (.vstig .query m.id m.key m.elem)
  | [] => match q.join with
  | i :: _ => some (.swarm .join i)
  | [] => match q.leave with
  | i :: _ => some (.swarm .leave i)
  | [] => none

/-- Forget a message in the dictionary (460-462, 471-473); a missing stigmergy would be a NULL dereference. -/
def forget (q : Q B K D) (m : VMsg K D) : Res (Q B K D) :=
  match FMap.get q.vstig m.id with
  | none => .ub
  | some vs => .ok { q with vstig := FMap.set q.vstig m.id (FMap.del vs m.key) }

/-- `buzzoutmsg_queue_next` (446-485). -/
def next (q : Q B K D) : Res (Q B K D) :=
  match q.bc with
  | _ :: r => .ok { q with bc := r }
  | [] => match q.list with
  | _ :: r => .ok { q with list := r }
  | [] => match q.put with
  | m :: r => do
    let q ← forget q m
    pure { q with put := r }
  | [] => match q.query with
  | m :: r => do
    let q ← forget q m
    pure { q with query := r }
  | [] => match q.join with
  | _ :: r => .ok { q with join := r }
  | [] => match q.leave with
  | _ :: r => .ok { q with leave := r }
  | [] => .ok q

/-! ### Invariant of the stigmergy part -/

/-- All queued stigmergy messages. -/
def vmsgs (q : Q B K D) : List (VMsg K D) := q.put ++ q.query

/-- The dictionary as a function. -/
def look (q : Q B K D) (id : Nat) (key : K) : Option Nat := (FMap.get q.vstig id).bind (fun vs => FMap.get vs key)

/-- Consistency of dictionary and queues. -/
structure Inv (q : Q B K D) : Prop where
  tput : ∀ m ∈ q.put, m.type = .put
  tquery : ∀ m ∈ q.query, m.type = .query
  nodup : ((vmsgs q).map (·.ptr)).Nodup
  bound : ∀ m ∈ vmsgs q, m.ptr < q.brk
  look : ∀ id key p, look q id key = some p ↔ ∃ m ∈ vmsgs q, m.ptr = p ∧ m.id = id ∧ m.key = key

theorem new_inv : Inv (new : Q B K D) := by
  refine ⟨by simp [new], by simp [new], by simp [new, vmsgs], by simp [new, vmsgs], ?_⟩
  intro id key p
  simp [new, vmsgs, OutMsg.look]

theorem look_set (q : Q B K D) (id : Nat) (vs : List (K × Nat)) (key : K) (p : Nat)
    (hvs : ∀ k, FMap.get vs k = look q id k) (id' : Nat) (key' : K) (q' : Q B K D)
    (h : q'.vstig = FMap.set q.vstig id (FMap.set vs key p)) :
    look q' id' key' = if id' = id ∧ key' = key then some p else look q id' key' := by
  unfold look
  rw [h, FMap.get_set]
  by_cases h1 : id' = id
  · subst h1
    rw [if_pos rfl, Option.bind_some, FMap.get_set, hvs]
    simp only [true_and]
    rfl
  · simp [h1]

theorem eraseP_eq_filter {l : List (VMsg K D)} (h : (l.map (·.ptr)).Nodup) (p : Nat) :
    l.eraseP (fun m => m.ptr == p) = l.filter (fun m => m.ptr ≠ p) := by
  induction l with
  | nil => simp
  | cons a l ih =>
    rw [List.map_cons, List.nodup_cons] at h
    by_cases ha : a.ptr = p
    · rw [List.eraseP_cons_of_pos (by simpa using ha), List.filter_cons_of_neg (by simpa using ha)]
      symm
      apply List.filter_eq_self.mpr
      intro m hm
      have : m.ptr ≠ p := fun hp => h.1 (List.mem_map.mpr ⟨m, hm, by rw [hp, ha]⟩)
      simpa using this
    · rw [List.eraseP_cons_of_neg (by simpa using ha), List.filter_cons_of_pos (by simpa using ha), ih h.2]

/-- Messages other than the one for `(id, key)`. -/
def other (id : Nat) (key : K) (m : VMsg K D) : Bool := !(m.id == id && m.key == key)

theorem other_iff {id : Nat} {key : K} {m : VMsg K D} : other id key m = true ↔ ¬ (m.id = id ∧ m.key = key) := by
  simp only [other]
  rw [Bool.not_eq_true', Bool.and_eq_false_iff, beq_eq_false_iff_ne, beq_eq_false_iff_ne, not_and_or]

theorem inj_ptr {q : Q B K D} (v : Inv q) {m m' : VMsg K D} (h : m ∈ vmsgs q) (h' : m' ∈ vmsgs q) (e : m.ptr = m'.ptr) :
    m = m' := List.inj_on_of_nodup_map v.nodup h h' e

/-- At most one message per stigmergy and key. -/
theorem inj_key {q : Q B K D} (v : Inv q) {m m' : VMsg K D} (h : m ∈ vmsgs q) (h' : m' ∈ vmsgs q) (e : m.id = m'.id)
    (e' : m.key = m'.key) : m = m' := by
  have h1 := (v.look m.id m.key m.ptr).mpr ⟨m, h, rfl, rfl, rfl⟩
  have h2 := (v.look m'.id m'.key m'.ptr).mpr ⟨m', h', rfl, rfl, rfl⟩
  rw [e, e'] at h1
  exact inj_ptr v h h' (Option.some.inj (h1.symm.trans h2))

/-- The queues after `enqueue`: the message for that key is dropped, the new one appended. -/
theorem enqueue_queues {q : Q B K D} (v : Inv q) (vs : List (K × Nat)) (t : VType) (id : Nat) (key : K) (e : Elem D)
    (old : Option (VType × Nat))
    (hold : ∀ et p, old = some (et, p) → ∃ m ∈ vmsgs q, m.ptr = p ∧ m.type = et ∧ m.id = id ∧ m.key = key)
    (hnone : old = none → look q id key = none) :
    enqueue q vs t id key e old =
      { q with
        brk := q.brk + 1
        vstig := FMap.set q.vstig id (FMap.set vs key q.brk)
        put := q.put.filter (other id key) ++ (if t = .put then [⟨q.brk, t, id, key, e⟩] else [])
        query := q.query.filter (other id key) ++ (if t = .query then [⟨q.brk, t, id, key, e⟩] else []) } := by
  have hsplit : (q.put.map (·.ptr)).Nodup ∧ (q.query.map (·.ptr)).Nodup := by
    have := v.nodup
    rw [vmsgs, List.map_append, List.nodup_append] at this
    exact ⟨this.1, this.2.1⟩
  cases old with
  | none =>
    have hn := hnone rfl
    have hf : ∀ m ∈ vmsgs q, other id key m = true := by
      intro m hm
      rw [other_iff]
      rintro ⟨h1, h2⟩
      have := (v.look id key m.ptr).mpr ⟨m, hm, rfl, h1, h2⟩
      rw [hn] at this; exact absurd this (by simp)
    have h1 : q.put.filter (other id key) = q.put :=
      List.filter_eq_self.mpr (fun m hm => hf m (List.mem_append_left _ hm))
    have h2 : q.query.filter (other id key) = q.query :=
      List.filter_eq_self.mpr (fun m hm => hf m (List.mem_append_right _ hm))
    rw [h1, h2]
    cases t <;> simp [enqueue, setVq, vq]
  | some o =>
    obtain ⟨et, p⟩ := o
    obtain ⟨m0, hm0, hp, ht, hi, hk⟩ := hold et p rfl
    have hf : ∀ m ∈ vmsgs q, (decide (m.ptr ≠ p)) = other id key m := by
      intro m hm
      by_cases hmp : m.ptr = p
      · have : m = m0 := inj_ptr v hm hm0 (hmp.trans hp.symm)
        subst this
        rw [decide_eq_false (by simpa using hmp)]
        simp [other, hi, hk]
      · rw [decide_eq_true hmp]
        symm
        rw [other_iff]
        rintro ⟨h1, h2⟩
        have : m = m0 := inj_key v hm hm0 (h1.trans hi.symm) (h2.trans hk.symm)
        subst this
        exact hmp hp
    have h1 : q.put.eraseP (fun m => m.ptr == p) = q.put.filter (other id key) :=
      (eraseP_eq_filter hsplit.1 p).trans <| List.filter_congr (fun m hm => hf m (List.mem_append_left _ hm))
    have h2 : q.query.eraseP (fun m => m.ptr == p) = q.query.filter (other id key) :=
      (eraseP_eq_filter hsplit.2 p).trans <| List.filter_congr (fun m hm => hf m (List.mem_append_right _ hm))
    have h3 : et = .query → q.put.filter (other id key) = q.put := by
      intro he
      apply List.filter_eq_self.mpr
      intro m hm
      rw [← hf m (List.mem_append_left _ hm), decide_eq_true_iff]
      intro hmp
      have : m = m0 := inj_ptr v (List.mem_append_left _ hm) hm0 (hmp.trans hp.symm)
      have h5 := v.tput m hm
      rw [this, ht, he] at h5; exact absurd h5 (by simp)
    have h4 : et = .put → q.query.filter (other id key) = q.query := by
      intro he
      apply List.filter_eq_self.mpr
      intro m hm
      rw [← hf m (List.mem_append_right _ hm), decide_eq_true_iff]
      intro hmp
      have : m = m0 := inj_ptr v (List.mem_append_right _ hm) hm0 (hmp.trans hp.symm)
      have h5 := v.tquery m hm
      rw [this, ht, he] at h5; exact absurd h5 (by simp)
    cases et with
    | put => cases t <;> simp [enqueue, setVq, vq, h1, h4]
    | query => cases t <;> simp [enqueue, setVq, vq, h2, h3]

theorem mem_enqueued {q : Q B K D} {t : VType} {id : Nat} {key : K} {new m : VMsg K D} (hn : new.type = t) :
    m ∈ (q.put.filter (other id key) ++ (if t = .put then [new] else [])) ++
      (q.query.filter (other id key) ++ (if t = .query then [new] else [])) ↔
    (m ∈ vmsgs q ∧ ¬ (m.id = id ∧ m.key = key)) ∨ m = new := by
  simp only [vmsgs, List.mem_append, List.mem_filter, other_iff]
  cases t <;> simp <;> tauto

/-- `enqueue` keeps the invariant. -/
theorem enqueue_inv {q : Q B K D} (v : Inv q) (vs : List (K × Nat)) (t : VType) (id : Nat) (key : K) (e : Elem D)
    (hvs : ∀ k, FMap.get vs k = look q id k) (old : Option (VType × Nat))
    (hold : ∀ et p, old = some (et, p) → ∃ m ∈ vmsgs q, m.ptr = p ∧ m.type = et ∧ m.id = id ∧ m.key = key)
    (hnone : old = none → look q id key = none) :
    Inv (enqueue q vs t id key e old) ∧
    ∀ m, m ∈ vmsgs (enqueue q vs t id key e old) ↔
      (m ∈ vmsgs q ∧ ¬ (m.id = id ∧ m.key = key)) ∨ m = ⟨q.brk, t, id, key, e⟩ := by
  have hq := enqueue_queues v vs t id key e old hold hnone
  have hmem : ∀ m, m ∈ vmsgs (enqueue q vs t id key e old) ↔
      (m ∈ vmsgs q ∧ ¬ (m.id = id ∧ m.key = key)) ∨ m = ⟨q.brk, t, id, key, e⟩ := by
    intro m
    rw [hq]
    exact mem_enqueued rfl
  refine ⟨⟨?_, ?_, ?_, ?_, ?_⟩, hmem⟩
  · intro m hm
    rw [hq] at hm
    simp only [List.mem_append, List.mem_filter] at hm
    rcases hm with hm | hm
    · exact v.tput m hm.1
    · cases t <;> simp at hm
      rw [hm]
  · intro m hm
    rw [hq] at hm
    simp only [List.mem_append, List.mem_filter] at hm
    rcases hm with hm | hm
    · exact v.tquery m hm.1
    · cases t <;> simp at hm
      rw [hm]
  · have hperm : (vmsgs (enqueue q vs t id key e old)).Perm
        ((vmsgs q).filter (other id key) ++ [⟨q.brk, t, id, key, e⟩]) := by
      rw [hq]
      simp only [vmsgs, List.filter_append]
      cases t
      · simp only [if_true, reduceCtorEq, if_false, List.append_nil, List.append_assoc]
        exact List.Perm.append_left _ List.perm_append_comm
      · simp
    rw [(hperm.map _).nodup_iff, List.map_append, List.nodup_append]
    refine ⟨v.nodup.sublist ((List.filter_sublist).map _), by simp, ?_⟩
    intro a ha b hb
    simp only [List.map_cons, List.map_nil, List.mem_singleton] at hb
    obtain ⟨m, hm, rfl⟩ := List.mem_map.mp ha
    have := v.bound m (List.mem_of_mem_filter hm)
    omega
  · intro m hm
    have hb : (enqueue q vs t id key e old).brk = q.brk + 1 := by rw [hq]
    rw [hb]
    rcases (hmem m).mp hm with h | h
    · have := v.bound m h.1; omega
    · rw [h]; simp
  · intro id' key' p'
    rw [look_set q id vs key q.brk hvs id' key' _ (by rw [hq])]
    by_cases hc : id' = id ∧ key' = key
    · obtain ⟨rfl, rfl⟩ := hc
      simp only [and_self, if_true, Option.some.injEq]
      constructor
      · rintro rfl
        exact ⟨_, (hmem _).mpr (.inr rfl), rfl, rfl, rfl⟩
      · rintro ⟨m, hm, h1, h2, h3⟩
        rcases (hmem m).mp hm with h | h
        · exact absurd ⟨h2, h3⟩ h.2
        · rw [← h1, h]
    · rw [if_neg hc, v.look]
      constructor
      · rintro ⟨m, hm, h1, h2, h3⟩
        refine ⟨m, (hmem m).mpr (.inl ⟨hm, ?_⟩), h1, h2, h3⟩
        rw [h2, h3]; exact hc
      · rintro ⟨m, hm, h1, h2, h3⟩
        rcases (hmem m).mp hm with h | h
        · exact ⟨m, h.1, h1, h2, h3⟩
        · rw [h] at h2 h3
          exact absurd ⟨h2.symm, h3.symm⟩ hc

/-- The queued message for a stigmergy and key. -/
def queued (q : Q B K D) (id : Nat) (key : K) : Option (VMsg K D) := (vmsgs q).find? (fun m => m.id = id ∧ m.key = key)

theorem queued_iff {q : Q B K D} (v : Inv q) (id : Nat) (key : K) (m : VMsg K D) :
    queued q id key = some m ↔ m ∈ vmsgs q ∧ m.id = id ∧ m.key = key := by
  constructor
  · intro h
    exact ⟨List.mem_of_find?_eq_some h, by simpa using List.find?_some h⟩
  · rintro ⟨hm, hi, hk⟩
    cases hf : queued q id key with
    | none =>
      have := List.find?_eq_none.mp hf m hm
      simp [hi, hk] at this
    | some m' =>
      have h2 := List.mem_of_find?_eq_some hf
      have h3 : m'.id = id ∧ m'.key = key := by simpa using List.find?_some hf
      rw [inj_key v hm h2 (hi.trans h3.1.symm) (hk.trans h3.2.symm)]

theorem queued_none {q : Q B K D} (id : Nat) (key : K) :
    queued q id key = none ↔ ∀ m ∈ vmsgs q, ¬ (m.id = id ∧ m.key = key) := by
  simp [queued]

/-- `appendVstig` never fails and keeps the queued message when it is at least as new, else replaces it. -/
theorem appendVstig_spec {q : Q B K D} (v : Inv q) (t : VType) (id : Nat) (key : K) (e : Elem D) :
    (∃ m, queued q id key = some m ∧ e.ts ≤ m.elem.ts ∧ appendVstig q t id key e = .ok q) ∨
    ((∀ m, queued q id key = some m → m.elem.ts < e.ts) ∧ ∃ q', appendVstig q t id key e = .ok q' ∧ Inv q' ∧
      q'.bc = q.bc ∧ q'.list = q.list ∧ q'.join = q.join ∧ q'.leave = q.leave ∧
      (q'.put = q.put.filter (other id key) ++ (if t = .put then [⟨q.brk, t, id, key, e⟩] else [])) ∧
      (q'.query = q.query.filter (other id key) ++ (if t = .query then [⟨q.brk, t, id, key, e⟩] else [])) ∧
      ∀ m, m ∈ vmsgs q' ↔ (m ∈ vmsgs q ∧ ¬ (m.id = id ∧ m.key = key)) ∨ m = ⟨q.brk, t, id, key, e⟩) := by
  have fin : ∀ vs old, (∀ k, FMap.get vs k = look q id k) →
      (∀ et p, old = some (et, p) → ∃ m ∈ vmsgs q, m.ptr = p ∧ m.type = et ∧ m.id = id ∧ m.key = key) →
      (old = none → look q id key = none) → appendVstig q t id key e = .ok (enqueue q vs t id key e old) →
      ∃ q', appendVstig q t id key e = .ok q' ∧ Inv q' ∧
      q'.bc = q.bc ∧ q'.list = q.list ∧ q'.join = q.join ∧ q'.leave = q.leave ∧
      (q'.put = q.put.filter (other id key) ++ (if t = .put then [⟨q.brk, t, id, key, e⟩] else [])) ∧
      (q'.query = q.query.filter (other id key) ++ (if t = .query then [⟨q.brk, t, id, key, e⟩] else [])) ∧
      ∀ m, m ∈ vmsgs q' ↔ (m ∈ vmsgs q ∧ ¬ (m.id = id ∧ m.key = key)) ∨ m = ⟨q.brk, t, id, key, e⟩ := by
    intro vs old h1 h2 h3 h4
    obtain ⟨h5, h6⟩ := enqueue_inv v vs t id key e h1 old h2 h3
    have hq := enqueue_queues v vs t id key e old h2 h3
    exact ⟨_, h4, h5, by rw [hq], by rw [hq], by rw [hq], by rw [hq], by rw [hq], by rw [hq], h6⟩
  have nq : look q id key = none → queued q id key = none := by
    intro h
    rw [queued_none]
    rintro m hm ⟨h1, h2⟩
    have := (v.look id key m.ptr).mpr ⟨m, hm, rfl, h1, h2⟩
    rw [h] at this; exact absurd this (by simp)
  cases h1 : FMap.get q.vstig id with
  | none =>
    have hl : ∀ k, look q id k = none := by intro k; simp [look, h1]
    right
    refine ⟨by rw [nq (hl key)]; simp, fin [] none (by intro k; rw [hl]; rfl) (by simp) (fun _ => hl key) ?_⟩
    simp [appendVstig, h1]
  | some vs =>
    have hl : ∀ k, FMap.get vs k = look q id k := by intro k; simp [look, h1]
    cases h2 : FMap.get vs key with
    | none =>
      right
      have hn : look q id key = none := by rw [← hl, h2]
      refine ⟨by rw [nq hn]; simp, fin vs none hl (by simp) (fun _ => hn) ?_⟩
      simp [appendVstig, h1, h2]
    | some p =>
      obtain ⟨m, hm, hp, hi, hk⟩ := (v.look id key p).mp (by rw [← hl, h2])
      have hd : deref q p = .ok m := by
        unfold deref
        cases hf : (q.put ++ q.query).find? (fun m => m.ptr == p) with
        | none =>
          have := List.find?_eq_none.mp hf m hm
          simp [hp] at this
        | some m' =>
          have h3 := List.find?_some hf
          rw [inj_ptr v hm (List.mem_of_find?_eq_some hf) (by simp at h3; rw [hp, h3])]
      have hqd : queued q id key = some m := (queued_iff v id key m).mpr ⟨hm, hi, hk⟩
      by_cases hts : m.elem.ts ≥ e.ts
      · left
        refine ⟨m, hqd, hts, ?_⟩
        simp [appendVstig, h1, h2, hd, hts]
      · right
        refine ⟨?_, fin vs (some (m.type, p)) hl ?_ (by simp) ?_⟩
        · intro m' h; rw [hqd] at h; cases h; omega
        · rintro et p' h; cases h; exact ⟨m, hm, hp, rfl, hi, hk⟩
        · simp [appendVstig, h1, h2, hd, hts]

/-- `forget` of a queued message never fails. -/
theorem forget_spec {q : Q B K D} (v : Inv q) {m : VMsg K D} (hm : m ∈ vmsgs q) :
    ∃ d, forget q m = .ok { q with vstig := d } ∧
      ∀ id key, look { q with vstig := d } id key = if id = m.id ∧ key = m.key then none else look q id key := by
  have hl := (v.look m.id m.key m.ptr).mpr ⟨m, hm, rfl, rfl, rfl⟩
  unfold forget
  unfold look at hl
  cases h1 : FMap.get q.vstig m.id with
  | none => rw [h1] at hl; simp at hl
  | some vs =>
    refine ⟨_, rfl, ?_⟩
    intro id key
    unfold look
    rw [FMap.get_set]
    by_cases hi : id = m.id
    · subst hi
      rw [if_pos rfl, Option.bind_some, FMap.get_del, h1]
      simp
    · simp [hi]

theorem drop_inv {q q' : Q B K D} (v : Inv q) (m : VMsg K D) (hm : m ∈ vmsgs q)
    (hsubp : q'.put.Sublist q.put) (hsubq : q'.query.Sublist q.query) (hbrk : q'.brk = q.brk)
    (hmem : ∀ m', m' ∈ vmsgs q' ↔ m' ∈ vmsgs q ∧ m' ≠ m)
    (hlook : ∀ id key, look q' id key = if id = m.id ∧ key = m.key then none else look q id key) : Inv q' := by
  refine ⟨fun a ha => v.tput a (hsubp.subset ha), fun a ha => v.tquery a (hsubq.subset ha),
    v.nodup.sublist ((hsubp.append hsubq).map _), ?_, ?_⟩
  · intro a ha
    rw [hbrk]
    exact v.bound a ((hmem a).mp ha).1
  · intro id key p
    rw [hlook]
    by_cases hc : id = m.id ∧ key = m.key
    · rw [if_pos hc]
      constructor
      · intro h; exact absurd h (by simp)
      · rintro ⟨a, ha, _, h2, h3⟩
        obtain ⟨h4, h5⟩ := (hmem a).mp ha
        exact absurd (inj_key v h4 hm (h2.trans hc.1) (h3.trans hc.2)) h5
    · rw [if_neg hc, v.look]
      constructor
      · rintro ⟨a, ha, h1, h2, h3⟩
        refine ⟨a, (hmem a).mpr ⟨ha, ?_⟩, h1, h2, h3⟩
        rintro rfl
        exact hc ⟨h2.symm, h3.symm⟩
      · rintro ⟨a, ha, h1⟩
        exact ⟨a, ((hmem a).mp ha).1, h1⟩

/-- The queue as one list, in the order it drains. -/
def contents (q : Q B K D) : List (Msg B K D) :=
  q.bc.map .broadcast ++ q.list.map .list ++ q.put.map (fun m => .vstig .put m.id m.key m.elem) ++
    q.query.map (fun m => .vstig .query m.id m.key m.elem) ++ q.join.map (.swarm .join) ++ q.leave.map (.swarm .leave)

theorem first_eq (q : Q B K D) : first q = (contents q).head? := by
  unfold first contents
  cases q.bc with
  | cons => simp
  | nil => cases q.list with
  | cons => simp
  | nil => cases q.put with
  | cons => simp
  | nil => cases q.query with
  | cons => simp
  | nil => cases q.join with
  | cons => simp
  | nil => cases q.leave <;> simp

theorem nodup_vmsgs {q : Q B K D} (v : Inv q) : (vmsgs q).Nodup := List.Nodup.of_map _ v.nodup

/-- `next` never fails; it removes the head of the contents, and from the stigmergy messages only that one. -/
theorem next_spec {q : Q B K D} (v : Inv q) : ∃ q', next q = .ok q' ∧ Inv q' ∧ contents q' = (contents q).tail ∧
    ((∃ t id key e, first q = some (.vstig t id key e) ∧ queued q' id key = none ∧
        (∃ m ∈ vmsgs q, m.id = id ∧ m.key = key ∧ m.elem = e ∧ m.type = t) ∧
        ∀ m, m ∈ vmsgs q' ↔ m ∈ vmsgs q ∧ ¬ (m.id = id ∧ m.key = key)) ∨
     ((∀ t id key e, first q ≠ some (.vstig t id key e)) ∧ vmsgs q' = vmsgs q)) := by
  have same : ∀ q' : Q B K D, q'.put = q.put → q'.query = q.query → q'.vstig = q.vstig → q'.brk = q.brk → Inv q' := by
    intro q' h1 h2 h3 h4
    refine ⟨by rw [h1]; exact v.tput, by rw [h2]; exact v.tquery, ?_, ?_, ?_⟩
    · simp only [vmsgs, h1, h2]; exact v.nodup
    · simp only [vmsgs, h1, h2, h4]; exact v.bound
    · simp only [vmsgs, h1, h2, look, h3]; exact v.look
  have nd := nodup_vmsgs v
  unfold next first contents
  rcases hbc : q.bc with _ | ⟨b, r⟩
  swap
  · refine ⟨_, rfl, same _ rfl rfl rfl rfl, by simp, .inr ⟨by simp, rfl⟩⟩
  rcases hlist : q.list with _ | ⟨b, r⟩
  swap
  · refine ⟨_, rfl, same _ rfl rfl rfl rfl, by simp [hbc], .inr ⟨by simp, rfl⟩⟩
  rcases hput : q.put with _ | ⟨m, r⟩
  swap
  · have hm : m ∈ vmsgs q := by simp [vmsgs, hput]
    obtain ⟨d, hd, hl⟩ := forget_spec v hm
    have hmem : ∀ m', m' ∈ r ++ q.query ↔ m' ∈ vmsgs q ∧ m' ≠ m := by
      intro m'
      rw [vmsgs, hput, List.cons_append, List.nodup_cons] at nd
      rw [vmsgs, hput, List.cons_append, List.mem_cons]
      constructor
      · intro h; exact ⟨.inr h, by rintro rfl; exact nd.1 h⟩
      · rintro ⟨h | h, h'⟩
        · exact absurd h h'
        · exact h
    have hv : Inv { q with vstig := d, put := r } := drop_inv v m hm (by simp [hput]) (List.Sublist.refl _) rfl hmem hl
    refine ⟨{ q with vstig := d, put := r }, by simp [hd], hv, by simp [hbc, hlist], .inl ⟨.put, m.id, m.key, m.elem, rfl, ?_, ?_, ?_⟩⟩
    · rw [queued_none]
      rintro a ha ⟨h1, h2⟩
      obtain ⟨h3, h4⟩ := (hmem a).mp ha
      exact h4 (inj_key v h3 hm h1 h2)
    · exact ⟨m, hm, rfl, rfl, rfl, v.tput m (by rw [hput]; simp)⟩
    · intro a
      refine (hmem a).trans (and_congr_right fun h => not_congr ⟨by rintro rfl; exact ⟨rfl, rfl⟩, fun ⟨h1, h2⟩ => inj_key v h hm h1 h2⟩)
  rcases hquery : q.query with _ | ⟨m, r⟩
  swap
  · have hm : m ∈ vmsgs q := by simp [vmsgs, hquery]
    obtain ⟨d, hd, hl⟩ := forget_spec v hm
    have hmem : ∀ m', m' ∈ q.put ++ r ↔ m' ∈ vmsgs q ∧ m' ≠ m := by
      intro m'
      rw [vmsgs, hput, hquery, List.nil_append, List.nodup_cons] at nd
      rw [vmsgs, hput, hquery, List.nil_append, List.nil_append, List.mem_cons]
      constructor
      · intro h; exact ⟨.inr h, by rintro rfl; exact nd.1 h⟩
      · rintro ⟨h | h, h'⟩
        · exact absurd h h'
        · exact h
    have hv : Inv { q with vstig := d, query := r } := drop_inv v m hm (List.Sublist.refl _) (by simp [hquery]) rfl hmem hl
    refine ⟨{ q with vstig := d, query := r }, by simp [hd], hv, by simp [hbc, hlist, hput],
      .inl ⟨.query, m.id, m.key, m.elem, rfl, ?_, ?_, ?_⟩⟩
    · rw [queued_none]
      rintro a ha ⟨h1, h2⟩
      obtain ⟨h3, h4⟩ := (hmem a).mp ha
      exact h4 (inj_key v h3 hm h1 h2)
    · exact ⟨m, hm, rfl, rfl, rfl, v.tquery m (by rw [hquery]; simp)⟩
    · intro a
      refine (hmem a).trans (and_congr_right fun h => not_congr ⟨by rintro rfl; exact ⟨rfl, rfl⟩, fun ⟨h1, h2⟩ => inj_key v h hm h1 h2⟩)
  rcases hjoin : q.join with _ | ⟨b, r⟩
  swap
  · refine ⟨_, rfl, same _ (by simp [hput]) (by simp [hquery]) rfl rfl, by simp [hbc, hlist, hput, hquery], .inr ⟨by simp, by simp [vmsgs, hput, hquery]⟩⟩
  rcases hleave : q.leave with _ | ⟨b, r⟩
  swap
  · refine ⟨_, rfl, same _ (by simp [hput]) (by simp [hquery]) rfl rfl, by simp [hbc, hlist, hput, hquery, hjoin], .inr ⟨by simp, by simp [vmsgs, hput, hquery]⟩⟩
  · refine ⟨q, rfl, v, by simp [hbc, hlist, hput, hquery, hjoin, hleave], .inr ⟨by simp, rfl⟩⟩

end Buzz.OutMsg
