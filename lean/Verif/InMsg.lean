import Verif.DictLemmas
import Verif.FMap

/-
The input message queue, src/buzz/buzzinmsg.c and buzzinmsg.h.

The dictionary maps a robot id to the address of a dynamic array of payloads (a list, C01); `arrs` holds the allocated
arrays.  `P` is the type of payloads.
-/
namespace Buzz.InMsg

variable {P : Type}

/-- Hash and equality of 16-bit keys (buzzdict.c 215-238). -/
def hash16 (k : Nat) : Nat := k

/-- The state: the dictionary `vm->inmsgs`, the allocated arrays and the next free address. -/
structure In (P : Type) where
  d : Dict.Dict Nat Nat
  arrs : List (Nat × List P)
  brk : Nat

/-- `buzzinmsg_queue_new` (buzzinmsg.h 60): 20 buckets. -/
def new : In P := ⟨Dict.new 20, [], 0⟩

/-- Dereference an array. -/
def deref (s : In P) (a : Nat) : Res (List P) :=
  match FMap.get s.arrs a with
  | some q => .ok q
  | none => .ub

/-- Lines 24-29: make sure the sender has an array. -/
def ensure (s : In P) (rid : Nat) : Res (In P) := do
  let ex ← Dict.isIn hash16 (· == ·) s.d rid
  if ex then pure s
  else do
    let (d, _) ← Dict.set hash16 (· == ·) s.d rid s.brk
    pure ⟨d, FMap.set s.arrs s.brk [], s.brk + 1⟩

/-- `buzzinmsg_queue_append` (20-34). -/
def append (s : In P) (rid : Nat) (p : P) : Res (In P) := do
  let s ← ensure s rid
  let r ← Dict.rawget hash16 (· == ·) s.d rid
  match r with
  | none => .ub
  | some a => do
    let q ← deref s a
    pure { s with arrs := FMap.set s.arrs a (q ++ [p]) }

/-- The first non-NULL bucket (51-61); entry 0 of it. -/
def firstEntry : List (Option (List (Nat × Nat))) → Res (Nat × Nat)
  | [] => .ub
  | none :: bs => firstEntry bs
  | some [] :: _ => .ub
  | some (e :: _) :: _ => .ok e

/-- Lines 63-67: take the last payload; drop the sender when nothing is left.  Removing frees the arrays of the entries removed
(`buzzvm_inmsg_queue_destroy_entry`, 11-15). -/
def take (s : In P) (e : Nat × Nat) : Res (In P × Option (Nat × P)) := do
  let q ← deref s e.2
  match q.getLast? with
  | none => .ub
  | some p =>
    if q.dropLast.isEmpty then do
      let (d, _, log) ← Dict.remove hash16 (· == ·) s.d e.1
      pure (⟨d, log.foldl (fun m x => FMap.del m x.2) s.arrs, s.brk⟩, some (e.1, p))
    else
      pure ({ s with arrs := FMap.set s.arrs e.2 q.dropLast }, some (e.1, p))

/-- `buzzinmsg_queue_extract` (44-70); `none` is the return value 0. -/
def extract (s : In P) : Res (In P × Option (Nat × P)) :=
  if s.d.size = 0 then .ok (s, none)
  else do
    let e ← firstEntry s.d.buckets
    take s e

/-! ### Lemmas -/

theorem lawful : Dict.Lawful hash16 (fun a b : Nat => a == b) :=
  ⟨by simp, fun a b h => by simp only [beq_iff_eq] at *; exact h.symm, by simp, by simp [hash16]⟩

/-- The address of a sender's array. -/
def addr (s : In P) (r : Nat) : Option Nat := ((Dict.entries s.d).find? (fun e => r == e.1)).map (·.2)

/-- The payloads waiting from a sender, oldest first. -/
def box (s : In P) (r : Nat) : List P := ((addr s r).bind (FMap.get s.arrs)).getD []

structure Inv (s : In P) : Prop where
  wf : Dict.WF hash16 (fun a b : Nat => a == b) s.d
  keys : ∀ e ∈ Dict.entries s.d, e.1 < 65536
  live : ∀ e ∈ Dict.entries s.d, ∃ q, FMap.get s.arrs e.2 = some q ∧ q ≠ []
  inj : ∀ e ∈ Dict.entries s.d, ∀ e' ∈ Dict.entries s.d, e.2 = e'.2 → e = e'
  bound : ∀ e ∈ Dict.entries s.d, e.2 < s.brk

theorem addr_iff {s : In P} (w : Dict.WF hash16 (fun a b : Nat => a == b) s.d) (r a : Nat) :
    addr s r = some a ↔ (r, a) ∈ Dict.entries s.d := by
  have hu := Dict.entries_uniq lawful w
  unfold addr
  constructor
  · intro h
    rw [Option.map_eq_some_iff] at h
    obtain ⟨e, he, rfl⟩ := h
    have h1 := List.mem_of_find?_eq_some he
    have h2 := List.find?_some he
    simp only [beq_iff_eq] at h2
    subst h2
    exact h1
  · intro h
    generalize Dict.entries s.d = l at hu h
    induction l with
    | nil => simp at h
    | cons e l ih =>
      rw [List.pairwise_cons] at hu
      rcases List.mem_cons.mp h with rfl | h
      · simp
      · have h1 := hu.1 (r, a) h
        have h2 : ¬ (r == e.1) = true := by
          simp only [beq_eq_false_iff_ne] at h1
          simp only [beq_iff_eq]
          exact fun hh => h1 hh.symm
        rw [List.find?_cons_of_neg (p := fun e : Nat × Nat => r == e.1) h2]
        exact ih hu.2 h

theorem new_inv : Inv (new : In P) := by
  refine ⟨Dict.new_wf (by decide), ?_, ?_, ?_, ?_⟩ <;> simp [new, Dict.entries_new]

theorem box_new (r : Nat) : box (new : In P) r = [] := by
  simp [box, addr, new, Dict.entries_new]

/-- `box` through the entry. -/
theorem box_of_mem {s : In P} (v : Inv s) {r a : Nat} (h : (r, a) ∈ Dict.entries s.d) : FMap.get s.arrs a = some (box s r) := by
  obtain ⟨q, hq, _⟩ := v.live _ h
  have := (addr_iff v.wf r a).mpr h
  simp only [box, this, Option.bind_some]
  simp only at hq
  simp [hq]

theorem box_none {s : In P} {r : Nat} (h : addr s r = none) : box s r = [] := by simp [box, h]

theorem box_eq_nil {s : In P} (v : Inv s) {r : Nat} : box s r = [] ↔ addr s r = none := by
  constructor
  · intro h
    cases ha : addr s r with
    | none => rfl
    | some a =>
      have hm := (addr_iff v.wf r a).mp ha
      obtain ⟨q, hq, hne⟩ := v.live _ hm
      rw [box_of_mem v hm] at hq
      cases hq
      exact absurd h hne
  · exact box_none

/-- Two states whose entries and arrays agree on the senders have the same boxes. -/
theorem box_congr {s s' : In P} {r : Nat} (ha : addr s' r = addr s r) (hg : ∀ a, addr s r = some a → FMap.get s'.arrs a = FMap.get s.arrs a) :
    box s' r = box s r := by
  unfold box
  rw [ha]
  cases h : addr s r with
  | none => rfl
  | some a => simp [hg a h]

theorem addr_ext {s s' : In P} (w : Dict.WF hash16 (fun a b : Nat => a == b) s.d) (w' : Dict.WF hash16 (fun a b : Nat => a == b) s'.d)
    (r : Nat) (h : ∀ a, (r, a) ∈ Dict.entries s'.d ↔ (r, a) ∈ Dict.entries s.d) : addr s' r = addr s r := by
  apply Option.ext
  intro a
  rw [addr_iff w', addr_iff w, h]

/-- The array of a sender is rewritten in place. -/
theorem rewrite_spec {s : In P} (v : Inv s) {r a : Nat} (h : (r, a) ∈ Dict.entries s.d) (q : List P) (hq : q ≠ []) :
    Inv { s with arrs := FMap.set s.arrs a q } ∧ box { s with arrs := FMap.set s.arrs a q } r = q ∧
      ∀ x, x ≠ r → box { s with arrs := FMap.set s.arrs a q } x = box s x := by
  have hadr : addr { s with arrs := FMap.set s.arrs a q } r = some a := (addr_iff v.wf r a).mpr h
  refine ⟨⟨v.wf, v.keys, ?_, v.inj, v.bound⟩, ?_, ?_⟩
  · intro e he
    obtain ⟨q', hq', hne⟩ := v.live e he
    by_cases hc : e.2 = a
    · exact ⟨q, by rw [FMap.get_set]; simp [hc], hq⟩
    · exact ⟨q', by rw [FMap.get_set]; simp [hc, hq'], hne⟩
  · unfold box
    rw [hadr]
    simp [FMap.get_set]
  · intro x hx
    refine box_congr (s := s) (s' := { s with arrs := FMap.set s.arrs a q }) rfl ?_
    intro b hb
    have hm := (addr_iff v.wf x b).mp hb
    rw [FMap.get_set, if_neg]
    rintro rfl
    have := v.inj _ h _ hm rfl
    exact hx (congrArg Prod.fst this).symm

/-- Appending adds the payload at the end of the sender's box and touches no other. -/
theorem append_spec {s : In P} (v : Inv s) (r : Nat) (hr : r < 65536) (p : P) :
    ∃ s', append s r p = .ok s' ∧ Inv s' ∧ box s' r = box s r ++ [p] ∧ ∀ x, x ≠ r → box s' x = box s x := by
  have hg := Dict.rawget_spec lawful v.wf r
  cases ha : addr s r with
  | some a =>
    have hm := (addr_iff v.wf r a).mp ha
    have hg' : Dict.rawget hash16 (fun a b : Nat => a == b) s.d r = .ok (some a) := by rw [hg]; exact congrArg Res.ok ha
    obtain ⟨h1, h2, h3⟩ := rewrite_spec v hm (box s r ++ [p]) (by simp)
    refine ⟨_, ?_, h1, h2, h3⟩
    simp [append, ensure, Dict.isIn, hg', deref, box_of_mem v hm]
  | none =>
    have hg' : Dict.rawget hash16 (fun a b : Nat => a == b) s.d r = .ok none := by rw [hg]; exact congrArg Res.ok ha
    obtain ⟨d', log, e1, w', _, hp, _⟩ := Dict.set_spec lawful v.wf r s.brk
    have hno : ∀ e ∈ Dict.entries s.d, e.1 ≠ r := by
      rintro ⟨x, a⟩ he rfl
      rw [(addr_iff v.wf _ a).mpr he] at ha; cases ha
    have hmem : ∀ e, e ∈ Dict.entries d' ↔ e ∈ Dict.entries s.d ∨ e = (r, s.brk) := by
      intro e
      rw [hp.mem_iff, List.mem_append, List.mem_filter, List.mem_singleton]
      constructor
      · rintro (⟨h, _⟩ | h)
        · exact .inl h
        · exact .inr h
      · rintro (h | h)
        · refine .inl ⟨h, ?_⟩
          have := hno e h
          simp only [Bool.not_eq_true', beq_eq_false_iff_ne]
          exact fun hh => this hh.symm
        · exact .inr h
    have hm : (r, s.brk) ∈ Dict.entries d' := (hmem _).mpr (.inr rfl)
    have hg2 : Dict.rawget hash16 (fun a b : Nat => a == b) d' r = .ok (some s.brk) := by
      rw [Dict.rawget_spec lawful w']
      have := (addr_iff (s := (⟨d', FMap.set s.arrs s.brk [], s.brk + 1⟩ : In P)) w' r s.brk).mpr hm
      exact congrArg Res.ok this
    -- the final state, described at once
    let s' : In P := ⟨d', FMap.set (FMap.set s.arrs s.brk []) s.brk [p], s.brk + 1⟩
    have hget : ∀ a, FMap.get s'.arrs a = if a = s.brk then some [p] else FMap.get s.arrs a := by
      intro a
      simp only [s', FMap.get_set]
      split <;> rfl
    refine ⟨s', ?_, ⟨w', ?_, ?_, ?_, ?_⟩, ?_, ?_⟩
    · simp [append, ensure, Dict.isIn, hg', e1, hg2, deref, FMap.get_set, s']
    · intro e he
      rcases (hmem e).mp he with h | rfl
      · exact v.keys e h
      · exact hr
    · intro e he
      rcases (hmem e).mp he with h | rfl
      · obtain ⟨q, hq, hne⟩ := v.live e h
        have := v.bound e h
        exact ⟨q, by rw [hget, if_neg (by omega)]; exact hq, hne⟩
      · exact ⟨[p], by rw [hget]; simp, by simp⟩
    · intro e he e' he' hee
      rcases (hmem e).mp he with h | rfl <;> rcases (hmem e').mp he' with h' | rfl
      · exact v.inj e h e' h' hee
      · have := v.bound e h; simp only at hee; omega
      · have := v.bound e' h'; simp only at hee; omega
      · rfl
    · intro e he
      simp only [s']
      rcases (hmem e).mp he with h | rfl
      · have := v.bound e h; omega
      · simp
    · rw [box_none ha]
      unfold box
      rw [(addr_iff (s := s') w' r s.brk).mpr hm, Option.bind_some, hget]
      simp
    · intro x hx
      apply box_congr
      · apply addr_ext v.wf w'
        intro a
        rw [hmem]
        constructor
        · rintro (h | h)
          · exact h
          · exact absurd (congrArg Prod.fst h) hx
        · exact .inl
      · intro a hax
        have := v.bound _ ((addr_iff v.wf x a).mp hax)
        simp only at this
        rw [hget, if_neg (by omega)]

/-- The entry `extract` uses. -/
theorem firstEntry_spec (bs : List (Option (List (Nat × Nat)))) (hne : ∀ b ∈ bs, b ≠ some [])
    (h : bs.flatMap (fun b => b.getD []) ≠ []) :
    ∃ e, firstEntry bs = .ok e ∧ e ∈ bs.flatMap (fun b => b.getD []) := by
  induction bs with
  | nil => simp at h
  | cons b bs ih =>
    cases b with
    | none =>
      obtain ⟨e, h1, h2⟩ := ih (fun b hb => hne b (List.mem_cons_of_mem _ hb)) (by simpa using h)
      exact ⟨e, h1, by simpa using h2⟩
    | some es =>
      cases es with
      | nil => exact absurd rfl (hne (some []) (by simp))
      | cons e es => exact ⟨e, rfl, by simp⟩

theorem length_entries_lt {s : In P} (v : Inv s) : (Dict.entries s.d).length < U32 := by
  have hn : ((Dict.entries s.d).map (·.1)).Nodup := by
    rw [List.nodup_iff_pairwise_ne, List.pairwise_map]
    exact (Dict.entries_uniq lawful v.wf).imp (fun h => by simpa using h)
  have hsub : (Dict.entries s.d).map (·.1) ⊆ List.range 65536 := by
    intro x hx
    obtain ⟨e, he, rfl⟩ := List.mem_map.mp hx
    exact List.mem_range.mpr (v.keys e he)
  have := (List.subperm_of_subset hn hsub).length_le
  rw [List.length_map, List.length_range] at this
  unfold U32; omega

theorem extract_spec {s : In P} (v : Inv s) :
    (extract s = .ok (s, none) ∧ ∀ r, box s r = []) ∨
    ∃ r p s', extract s = .ok (s', some (r, p)) ∧ r < 65536 ∧ Inv s' ∧ box s r = box s' r ++ [p] ∧
      ∀ x, x ≠ r → box s' x = box s x := by
  have hsz : s.d.size = (Dict.entries s.d).length := by
    rw [v.wf.size_eq, Nat.mod_eq_of_lt (length_entries_lt v)]
  by_cases h0 : Dict.entries s.d = []
  · left
    refine ⟨by simp [extract, hsz, h0], ?_⟩
    intro r
    apply box_none
    simp [addr, h0]
  · right
    have hne : ¬ s.d.size = 0 := by
      rw [hsz]; intro h; exact h0 (List.eq_nil_of_length_eq_zero h)
    obtain ⟨⟨r, a⟩, h1, h2⟩ := firstEntry_spec s.d.buckets (by
      intro b hb hbe
      subst hbe
      obtain ⟨i, hi⟩ := List.mem_iff_getElem?.mp hb
      exact v.wf.nonempty i hi) h0
    have hm : (r, a) ∈ Dict.entries s.d := h2
    have hbox := box_of_mem v hm
    obtain ⟨q, hq, hqne⟩ := v.live _ hm
    simp only at hq
    rw [hbox] at hq
    cases hq
    have hlast : (box s r).getLast? = some ((box s r).getLast hqne) := List.getLast?_eq_some_getLast hqne
    have hsplit := List.dropLast_append_getLast hqne
    have hex : extract s = take s (r, a) := by simp [extract, hne, h1]
    by_cases hd : (box s r).dropLast = []
    · obtain ⟨d', log, e1, w', _, hp, hlog⟩ := Dict.remove_spec lawful v.wf r
      have hmem : ∀ e, e ∈ Dict.entries d' ↔ e ∈ Dict.entries s.d ∧ e.1 ≠ r := by
        intro e
        rw [hp.mem_iff, List.mem_filter]
        simp only [Bool.not_eq_true', beq_eq_false_iff_ne, ne_comm]
      have hl : log = [(r, a)] := by
        rw [hlog]
        have hu := Dict.entries_uniq lawful v.wf
        have := Dict.find_toList_eq_filter lawful r _ hu
        rw [← this]
        have ha := (addr_iff v.wf r a).mpr hm
        unfold addr at ha
        rw [Option.map_eq_some_iff] at ha
        obtain ⟨e, he, hea⟩ := ha
        have h3 := List.find?_some he
        simp only [beq_iff_eq] at h3
        rw [he, Option.toList_some, List.cons.injEq]
        exact ⟨Prod.ext h3.symm hea, rfl⟩
      let s' : In P := ⟨d', FMap.del s.arrs a, s.brk⟩
      have hget : ∀ e ∈ Dict.entries d', FMap.get s'.arrs e.2 = FMap.get s.arrs e.2 := by
        intro e he
        obtain ⟨h3, h4⟩ := (hmem e).mp he
        simp only [s', FMap.get_del]
        rw [if_neg]
        intro hea
        have := v.inj e h3 _ hm hea
        exact h4 (congrArg Prod.fst this)
      have hadr : addr s' r = none := by
        cases h : addr s' r with
        | none => rfl
        | some b =>
          have := (hmem _).mp ((addr_iff (s := s') w' r b).mp h)
          exact absurd rfl this.2
      refine ⟨r, (box s r).getLast hqne, s', ?_, v.keys _ hm, ⟨w', ?_, ?_, ?_, ?_⟩, ?_, ?_⟩
      · rw [hex]
        simp [take, deref, hbox, hlast, hd, e1, hl, s']
      · intro e he; exact v.keys e ((hmem e).mp he).1
      · intro e he
        obtain ⟨q, hq, hn⟩ := v.live e ((hmem e).mp he).1
        exact ⟨q, by rw [hget e he]; exact hq, hn⟩
      · intro e he e' he' hee
        exact v.inj e ((hmem e).mp he).1 e' ((hmem e').mp he').1 hee
      · intro e he; exact v.bound e ((hmem e).mp he).1
      · rw [box_none hadr]
        rw [hd] at hsplit
        exact hsplit.symm
      · intro x hx
        have hax : addr s' x = addr s x := by
          apply addr_ext v.wf w'
          intro b
          rw [hmem]
          exact ⟨fun h => h.1, fun h => ⟨h, hx⟩⟩
        apply box_congr hax
        intro b hb
        rw [← hax] at hb
        exact hget _ ((addr_iff (s := s') w' x b).mp hb)
    · obtain ⟨h3, h4, h5⟩ := rewrite_spec v hm (box s r).dropLast hd
      refine ⟨r, (box s r).getLast hqne, _, ?_, v.keys _ hm, h3, ?_, h5⟩
      · rw [hex]
        simp [take, deref, hbox, hlast, hd]
      · rw [h4, hsplit]

end Buzz.InMsg
