import Verif.Stig
import Verif.Props.Listen
import Verif.Props.MathLib

/-
The stigmergies of a machine, whose keys and values are numbers, strings and nil, behave as those of `Verif/Vstig.lean`.
-/
namespace Buzz.VM

open Buzz.F32 Buzz.Msg Buzz.Heap Buzz.Props Buzz.HeapWire Buzz.OutMsg Buzz.Vstig

/-! ### Entries changed in place -/

theorem touchIn_keys {p : Obj → Bool} {f : VElem → VElem} : ∀ (es : List (Obj × VElem)), (touchIn p f es).map Prod.fst = es.map Prod.fst
  | [] => rfl
  | e :: es => by
    unfold touchIn
    split
    · rfl
    · rw [List.map_cons, touchIn_keys es]; rfl

theorem touchIn_none {p : Obj → Bool} {f : VElem → VElem} : ∀ (es : List (Obj × VElem)), (∀ e ∈ es, p e.1 = false) → touchIn p f es = es
  | [], _ => rfl
  | e :: es, h => by
    unfold touchIn
    rw [if_neg (by rw [h e (List.mem_cons_self ..)]; simp), touchIn_none es (fun x hx => h x (List.mem_cons_of_mem _ hx))]

theorem touchIn_perm {k : Obj} {f : VElem → VElem} {p : Obj → Bool} : ∀ (es : List (Obj × VElem)) (x : VElem), (∀ e ∈ es, p e.1 = Table.eqd k e.1) →
    es.Pairwise (fun a b => Table.eqd a.1 b.1 = false) → es.find? (fun e => Table.eqd k e.1) = some (k, x) →
    (touchIn p f es).Perm (es.filter (fun e => !Table.eqd k e.1) ++ [(k, f x)])
  | [], _, _, _, h => by cases h
  | e :: es, x, hp, hu, hf => by
    rw [List.pairwise_cons] at hu
    unfold touchIn
    rw [hp e (List.mem_cons_self ..)]
    by_cases hk : Table.eqd k e.1 = true
    · rw [if_pos hk]
      rw [List.find?_cons_of_pos (p := fun e : Obj × VElem => Table.eqd k e.1) hk] at hf
      cases hf
      rw [List.filter_cons_of_neg (by simp [hk])]
      have : es.filter (fun e => !Table.eqd k e.1) = es := by
        apply List.filter_eq_self.mpr
        intro y hy
        rw [hu.1 y hy]; rfl
      rw [this]
      exact (List.perm_append_comm (l₁ := [_]) (l₂ := es))
    · rw [if_neg hk]
      rw [List.find?_cons_of_neg (p := fun e : Obj × VElem => Table.eqd k e.1) hk] at hf
      rw [List.filter_cons_of_pos (by simpa using hk)]
      exact (touchIn_perm es x (fun y hy => hp y (List.mem_cons_of_mem _ hy)) hu.2 hf).cons e

theorem find_key {k : Obj} {es : List (Obj × VElem)} {x : VElem} (h : ((es.find? (fun e => Table.eqd k e.1)).map (·.2)) = some x) :
    es.find? (fun e => Table.eqd k e.1) = some (k, x) := by
  obtain ⟨e, he, hx⟩ := Option.map_eq_some_iff.mp h
  have := List.find?_some he
  simp only [Table.eqd, decide_eq_true_eq] at this
  rw [he, ← hx, this]

/-- An entry changed in place. -/
theorem touch_spec {sc : Bytes → Bytes → Int} {S : Obj → Prop} (H : Table.Homog sc S) {t : Table.Tbl VElem} (w : Dict.WF Table.hashN Table.eqd t)
    (hk : Table.Keys S t) {k : Obj} (h : S k) (f : VElem → VElem) {x : VElem} (hx : Table.get sc t k = .ok (some x)) :
    ∃ t', touch sc t k f = .ok t' ∧ Dict.WF Table.hashN Table.eqd t' ∧ Table.Keys S t' ∧
      (Dict.entries t').Perm ((Dict.entries t).filter (fun e => !Table.eqd k e.1) ++ [(k, f x)]) := by
  rw [Table.get_spec H w hk h] at hx
  simp only [Res.ok.injEq] at hx
  have hx := find_key hx
  obtain ⟨b, hb, hs, hbk⟩ := Dict.home_bucket w k
  obtain ⟨l, r, hd, hl⟩ := Dict.split_at hb
  obtain ⟨hnl, hnr⟩ := Dict.no_match_away Table.eqd_lawful w hd hl
  have he : Dict.entries t = (l.flatMap (fun b => b.getD [])) ++ (b.getD [] ++ r.flatMap (fun b => b.getD [])) := by
    simp [Dict.entries, hd]
  have hset : ∀ b', t.buckets.set (Table.hashN k % t.buckets.length) b' = l ++ b' :: r := by
    intro b'; rw [hd] at hl ⊢; rw [← hl]; simp
  have none_find : ∀ {es : List (Obj × VElem)}, (∀ e ∈ es, Table.eqd k e.1 = false) → es.find? (fun e => Table.eqd k e.1) = none := fun h =>
    List.find?_eq_none.mpr (fun e hee => by rw [h e hee]; simp)
  cases b with
  | none =>
    rw [he, List.find?_append, List.find?_append, none_find hnl] at hx
    simp only [Option.getD_none, List.find?_nil, none_find hnr] at hx
    cases hx
  | some es =>
    have hu := w.uniq _ es hb
    have hhm := w.home _ es hb
    have hke : ∀ e ∈ es, S e.1 := Table.bucket_keys hk hbk
    have hp : ∀ e ∈ es, Table.keq sc k e.1 = Table.eqd k e.1 := fun e hee => Table.keq_eqd H h (hke e hee)
    have hfe : es.find? (fun e => Table.eqd k e.1) = some (k, x) := by
      rw [he, List.find?_append, List.find?_append, none_find hnl] at hx
      simp only [Option.getD_some, Option.none_or] at hx
      cases hf : es.find? (fun e => Table.eqd k e.1) with
      | some y => rw [hf] at hx; simpa using hx
      | none => rw [hf, none_find hnr] at hx; cases hx
    have hperm := touchIn_perm (f := f) es x hp hu hfe
    have mem_key : ∀ e ∈ touchIn (Table.keq sc k) f es, e.1 ∈ es.map Prod.fst := fun e hee => by
      rw [← touchIn_keys (p := Table.keq sc k) (f := f) es]
      exact List.mem_map_of_mem hee
    have pk : (touchIn (Table.keq sc k) f es).Pairwise (fun a b => Table.eqd a.1 b.1 = false) := by
      have h1 : (es.map Prod.fst).Pairwise (fun a b => Table.eqd a b = false) := List.pairwise_map.mpr hu
      rw [← touchIn_keys (p := Table.keq sc k) (f := f) es] at h1
      exact List.pairwise_map.mp h1
    have len : (touchIn (Table.keq sc k) f es).length = es.length := by
      have := congrArg List.length (touchIn_keys (p := Table.keq sc k) (f := f) es)
      simpa using this
    have hent : Dict.entries (⟨t.buckets.set (Table.hashN k % t.buckets.length) (some (touchIn (Table.keq sc k) f es)), t.size⟩ : Table.Tbl VElem) =
        (l.flatMap (fun b => b.getD [])) ++ (touchIn (Table.keq sc k) f es ++ r.flatMap (fun b => b.getD [])) := by
      rw [hset]; simp [Dict.entries]
    have ks : Table.Keys S (⟨t.buckets.set (Table.hashN k % t.buckets.length) (some (touchIn (Table.keq sc k) f es)), t.size⟩ : Table.Tbl VElem) := by
      intro e hee
      rw [hent, List.mem_append, List.mem_append] at hee
      rcases hee with hee | hee | hee
      · exact hk e (by rw [he]; exact List.mem_append_left _ hee)
      · obtain ⟨y, hy, hy2⟩ := List.mem_map.mp (mem_key e hee)
        rw [← hy2]; exact hke y hy
      · exact hk e (by rw [he]; exact List.mem_append_right _ (List.mem_append_right _ hee))
    refine ⟨_, by simp only [touch, hs, hbk, Res.ok_bind, Res.pure_eq, Option.map_some], ?_, ks, ?_⟩
    · apply Dict.wf_replace w hb
      · intro es' hes e hee
        cases hes
        obtain ⟨y, hy, hy2⟩ := List.mem_map.mp (mem_key e hee)
        rw [← hy2]; exact hhm y hy
      · intro es' hes
        cases hes
        exact pk
      · intro h0
        have h0 : touchIn (Table.keq sc k) f es = [] := Option.some.inj h0
        rw [h0] at len
        exact w.nonempty _ (by rw [hb, List.length_eq_zero_iff.mp len.symm])
      · rw [hent, w.size_eq, he]
        simp [len]
    · rw [hent, he]
      simp only [List.filter_append, Dict.filter_not_of_none hnl, Dict.filter_not_of_none hnr, Option.getD_some, List.append_assoc]
      refine List.Perm.append_left _ ?_
      refine (hperm.append_right _).trans ?_
      rw [List.append_assoc]
      exact List.Perm.append_left _ List.perm_append_comm

/-! ### What a machine's stigmergies say -/

/-- What an address holds, as a value. -/
def objAt (h : Heap) (a : Nat) : Obj :=
  match FMap.get h.objs a with
  | some m => objOf a m.cell
  | none => .nil

theorem objAt_holds {h : Heap} {a : Nat} {o : Obj} (k : Holds h a (.atom o)) : objAt h a = o := by
  obtain ⟨m, h1, h2⟩ := k
  unfold objAt
  rw [h1]
  simp only [h2]
  rfl

/-- A number, string, nil or user data. -/
def IsAtom (h : Heap) (a : Nat) : Prop := ∃ o, Holds h a (.atom o)

/-- An entry, as a value. -/
def seen (h : Heap) (x : VElem) : Elem Obj := ⟨objAt h x.data, x.ts, x.robot⟩

/-- A queued message, as a value. -/
def seenMsg (h : Heap) (m : StigMsg) : Nat × Obj × Elem Obj := (m.id, m.k, seen h m.e)

/-- What a message says. -/
def msgOf (m : VMsg Obj Obj) : Nat × Obj × Elem Obj := (m.id, m.key, m.elem)

/-- A stigmergy of the machine, without managers, whose keys are in `S` and whose values are atoms, has the entries of this one. -/
structure StigIs (S : Obj → Prop) (h : Heap) (st : Stig) (vs : Vs Obj Obj) : Prop where
  plain : st.onconflict = none ∧ st.onconflictlost = none
  plain' : vs.onconflict = none ∧ vs.hook = false
  wf : Dict.WF Table.hashN Table.eqd st.data
  keys : Table.Keys S st.data
  atoms : ∀ e ∈ Dict.entries st.data, Holds h e.2.key (.atom e.1) ∧ IsAtom h e.2.data
  same : vs.data.Perm ((Dict.entries st.data).map (fun e => (e.1, seen h e.2)))

/-- Both have the stigmergy or none has. -/
def StigsAgree (S : Obj → Prop) (h : Heap) : Option Stig → Option (Vs Obj Obj) → Prop
  | none, none => True
  | some st, some vs => StigIs S h st vs
  | _, _ => False

/-- The stigmergies and queues of a machine are those of `s`. -/
structure Mirror (S : Obj → Prop) (me : Nat) (h : Heap) (o : Other) (s : Vstig.St Unit Obj Obj) : Prop where
  me : s.me = me
  inv : OutMsg.Inv s.out
  only : s.out.bc = [] ∧ s.out.list = []
  stigs : ∀ id, StigsAgree S h (FMap.get o.vstigs id) (FMap.get s.vstigs id)
  puts : s.out.put.map msgOf = o.puts.map (seenMsg h)
  queries : s.out.query.map msgOf = o.queries.map (seenMsg h)
  msgs : ∀ m ∈ o.puts ++ o.queries, S m.k ∧ Holds h m.e.key (.atom m.k) ∧ IsAtom h m.e.data

variable {S : Obj → Prop} {me : Nat} {h h' : Heap} {o : Other} {s : Vstig.St Unit Obj Obj}

/-- The addresses the stigmergies and the queues use. -/
def StigHas (o : Other) (a : Nat) : Prop :=
  (∃ e ∈ o.vstigs, ∃ x ∈ Dict.entries e.2.data, x.2.key = a ∨ x.2.data = a) ∨ ∃ m ∈ o.puts ++ o.queries, m.e.key = a ∨ m.e.data = a

theorem seen_kept {x : VElem} (ha : IsAtom h x.data) (hk : ∀ o, Holds h x.data (.atom o) → Holds h' x.data (.atom o)) : seen h' x = seen h x := by
  obtain ⟨o, ho⟩ := ha
  unfold seen
  rw [objAt_holds ho, objAt_holds (hk o ho)]

theorem StigIs.mono {st : Stig} {vs : Vs Obj Obj} (i : StigIs S h st vs)
    (hk : ∀ x ∈ Dict.entries st.data, ∀ a, (x.2.key = a ∨ x.2.data = a) → ∀ o, Holds h a (.atom o) → Holds h' a (.atom o)) : StigIs S h' st vs where
  plain := i.plain
  plain' := i.plain'
  wf := i.wf
  keys := i.keys
  atoms e he := ⟨hk e he _ (.inl rfl) _ (i.atoms e he).1, by obtain ⟨o, ho⟩ := (i.atoms e he).2; exact ⟨o, hk e he _ (.inr rfl) _ ho⟩⟩
  same := by
    refine i.same.trans (.of_eq (List.map_congr_left fun e he => ?_))
    rw [seen_kept (i.atoms e he).2 (hk e he _ (.inr rfl))]

/-- Nothing changes as long as these objects stay what they are. -/
theorem Mirror.mono (m : Mirror S me h o s) (hk : ∀ a, StigHas o a → ∀ x, Holds h a (.atom x) → Holds h' a (.atom x)) : Mirror S me h' o s where
  me := m.me
  inv := m.inv
  only := m.only
  stigs id := by
    have := m.stigs id
    cases h1 : FMap.get o.vstigs id with
    | none =>
      rw [h1] at this
      cases h2 : FMap.get s.vstigs id with
      | none => trivial
      | some vs => rw [h2] at this; exact this.elim
    | some st =>
      rw [h1] at this
      cases h2 : FMap.get s.vstigs id with
      | none => rw [h2] at this; exact this
      | some vs =>
        rw [h2] at this
        exact StigIs.mono this (fun x hx a ha => hk a (.inl ⟨_, FMap.mem_of_get h1, x, hx, ha⟩))
  puts := by
    rw [m.puts]
    refine List.map_congr_left fun x hx => ?_
    have hx : x ∈ o.puts ++ o.queries := List.mem_append_left _ hx
    unfold seenMsg
    rw [seen_kept (m.msgs x hx).2.2 (hk _ (.inr ⟨x, hx, .inr rfl⟩))]
  queries := by
    rw [m.queries]
    refine List.map_congr_left fun x hx => ?_
    have hx : x ∈ o.puts ++ o.queries := List.mem_append_right _ hx
    unfold seenMsg
    rw [seen_kept (m.msgs x hx).2.2 (hk _ (.inr ⟨x, hx, .inr rfl⟩))]
  msgs x hx := ⟨(m.msgs x hx).1, hk _ (.inr ⟨x, hx, .inl rfl⟩) _ (m.msgs x hx).2.1, by
    obtain ⟨y, hy⟩ := (m.msgs x hx).2.2
    exact ⟨y, hk _ (.inr ⟨x, hx, .inr rfl⟩) _ hy⟩⟩

/-! ### Queueing -/

theorem clone_atom {sc : Bytes → Bytes → Int} (i : Inv h) {a : Nat} {x : Obj} (hx : Holds h a (.atom x)) (n : Nat) :
    clone sc (n + 1) h a = .ok (newobj h (.atom x)) := by
  obtain ⟨m, g1, g2⟩ := hx
  unfold clone Heap.deref
  rw [g1]
  simp only [Res.ok_bind, g2, Res.pure_eq]
  rw [i.marks _ (FMap.mem_of_get g1)]
  rfl

/-- The message about a key, on both sides. -/
theorem waiting_same {sc : Bytes → Bytes → Int} (H : Table.Homog sc S) (m : Mirror S me h o s) (id : Nat) {k : Obj} (hk : S k) :
    (OutMsg.queued s.out id k).map msgOf = (stigWaiting sc o id k).map (seenMsg h) := by
  have hl : (s.out.put ++ s.out.query).map msgOf = (o.puts ++ o.queries).map (seenMsg h) := by rw [List.map_append, List.map_append, m.puts, m.queries]
  have h1 : OutMsg.queued s.out id k = (s.out.put ++ s.out.query).find? ((fun t : Nat × Obj × Elem Obj => decide (t.1 = id ∧ t.2.1 = k)) ∘ msgOf) := rfl
  have h2 : stigWaiting sc o id k = (o.puts ++ o.queries).find? ((fun t : Nat × Obj × Elem Obj => decide (t.1 = id ∧ t.2.1 = k)) ∘ seenMsg h) := by
    unfold stigWaiting
    have key : ∀ l : List StigMsg, (∀ x ∈ l, S x.k) → l.find? (fun m => m.id == id && Table.keq sc k m.k) =
        l.find? ((fun t : Nat × Obj × Elem Obj => decide (t.1 = id ∧ t.2.1 = k)) ∘ seenMsg h) := by
      intro l
      induction l with
      | nil => intro _; rfl
      | cons a l ih =>
        intro hl
        have : (a.id == id && Table.keq sc k a.k) = ((fun t : Nat × Obj × Elem Obj => decide (t.1 = id ∧ t.2.1 = k)) ∘ seenMsg h) a := by
          rw [Table.keq_eqd H hk (hl a (List.mem_cons_self ..))]
          simp only [Table.eqd, Function.comp_apply, seenMsg, Bool.decide_and]
          rw [show (a.id == id) = decide (a.id = id) from rfl, show decide (k = a.k) = decide (a.k = k) from by simp only [eq_comm]]
          rfl
        rw [List.find?_cons, List.find?_cons, this, ih (fun x hx => hl x (List.mem_cons_of_mem _ hx))]
    exact key _ (fun x hx => (m.msgs x hx).1)
  rw [h1, h2, ← List.find?_map, ← List.find?_map, hl]

/-- The queue without the message about a key, on both sides. -/
theorem drop_same {sc : Bytes → Bytes → Int} (H : Table.Homog sc S) {id : Nat} {k : Obj} (hk : S k) {l : List StigMsg} {q : List (VMsg Obj Obj)}
    (hs : ∀ x ∈ l, S x.k) (e : q.map msgOf = l.map (seenMsg h)) : (q.filter (OutMsg.other id k)).map msgOf = (stigDrop sc id k l).map (seenMsg h) := by
  have h1 : (q.filter (OutMsg.other id k)).map msgOf = (q.map msgOf).filter (fun t => !(t.1 == id && t.2.1 == k)) := by
    rw [List.filter_map]; rfl
  have h2 : (stigDrop sc id k l).map (seenMsg h) = (l.map (seenMsg h)).filter (fun t => !(t.1 == id && t.2.1 == k)) := by
    rw [List.filter_map]
    congr 1
    refine List.filter_congr fun x hx => ?_
    rw [Table.keq_eqd H hk (hs x hx)]
    simp only [Table.eqd, Function.comp_apply, seenMsg]
    rw [show (x.k == k) = decide (x.k = k) from rfl, show decide (k = x.k) = decide (x.k = k) from by simp only [eq_comm]]
  rw [h1, h2, e]

/-- Only the two queues of stigmergy messages differ. -/
structure QueueOnly (o o' : Other) : Prop where
  vstigs : o'.vstigs = o.vstigs
  listeners : o'.listeners = o.listeners
  bcasts : o'.bcasts = o.bcasts

theorem stigQueue_eq {E : Env} (H : Table.Homog E.sc S) {vm : VM} {t : VType} {id : Nat} {e : VElem} {k : Obj} (hk : Holds vm.heap e.key (.atom k)) (sk : S k) :
    stigQueue E t id e vm = if (stigWaiting E.sc vm.other id k).any (fun m => decide (e.ts ≤ m.e.ts)) = true then Res.ok vm
      else (clone E.sc (vm.heap.objs.length + 1) vm.heap e.key).bind fun p => (clone E.sc (p.1.objs.length + 1) p.1 e.data).bind fun q =>
        Res.ok { vm with heap := q.1, other := stigPush E.sc t ⟨id, k, ⟨p.2, q.2, e.ts, e.robot⟩⟩ vm.other } := by
  obtain ⟨km, d1, d2⟩ := holds_deref hk
  obtain ⟨hn, hh⟩ := H.hash k sk
  have d3 : objOf e.key km.cell = k := by rw [d2]; rfl
  unfold stigQueue
  rw [d1, Res.ok_bind]
  simp only [d3, hh, Res.ok_bind]
  rfl

/-- Queueing a message does the same on both sides. -/
theorem queue_sim {E : Env} (H : Table.Homog E.sc S) {vm : VM} (i : VInv vm) (m : Mirror S me vm.heap vm.other s) (t : VType) (id : Nat) {e : VElem} {k v : Obj}
    (hk : Holds vm.heap e.key (.atom k)) (sk : S k) (hv : Holds vm.heap e.data (.atom v)) :
    ∃ h' o' s', stigQueue E t id e vm = .ok { vm with heap := h', other := o' } ∧ Vstig.queue s t id k ⟨v, e.ts, e.robot⟩ = .ok s' ∧
      Mirror S me h' o' s' ∧ QueueOnly vm.other o' ∧ VInv { vm with heap := h', other := o' } ∧ (∀ a c, Holds vm.heap a c → Holds h' a c) ∧ s'.vstigs = s.vstigs := by
  have hw := waiting_same H m id sk
  rw [stigQueue_eq H hk sk]
  rcases appendVstig_spec m.inv t id k ⟨v, e.ts, e.robot⟩ with ⟨q, hq, hts, h1⟩ | ⟨hlt, q', h1, iq, hbc, hlist, _, _, hput, hquery, hmem⟩
  · rw [hq] at hw
    obtain ⟨w, hw1, hw2⟩ := Option.map_eq_some_iff.mp hw.symm
    have hle : e.ts ≤ w.e.ts := by
      have : q.elem.ts = w.e.ts := by
        have := congrArg (fun t : Nat × Obj × Elem Obj => t.2.2.ts) hw2
        simpa [seenMsg, msgOf, seen] using this.symm
      simp only at hts
      omega
    rw [if_pos (by rw [hw1]; simpa using hle)]
    exact ⟨vm.heap, vm.other, s, rfl, by simp [Vstig.queue, h1], m, ⟨rfl, rfl, rfl⟩, i, fun _ _ h => h, rfl⟩
  · rw [if_neg (by
      cases hc : stigWaiting E.sc vm.other id k with
      | none => simp
      | some w =>
        rw [hc] at hw
        obtain ⟨q, hq1, hq2⟩ := Option.map_eq_some_iff.mp hw
        have h2 := hlt q hq1
        have : q.elem.ts = w.e.ts := by
          have := congrArg (fun t : Nat × Obj × Elem Obj => t.2.2.ts) hq2
          simpa [seenMsg, msgOf, seen] using this
        simp only at h2
        simp only [Option.any_some, decide_eq_true_eq]
        omega)]
    rw [clone_atom i.heap hk]
    simp only [Res.bind]
    have i1 : VInv (VM.push vm (.atom k)) := i.push (i.cells _ _ hk)
    have hv1 : Holds (newobj vm.heap (.atom k)).1 e.data (.atom v) := holds_old i.heap hv
    have hi1 : Heap.Inv (newobj vm.heap (.atom k)).1 := i1.heap
    rw [clone_atom hi1 hv1]
    simp only
    have i2 : VInv (VM.push (VM.push vm (.atom k)) (.atom v)) := i1.push (i1.cells _ _ hv1)
    have hold : ∀ a c, Holds vm.heap a c → Holds (newobj (newobj vm.heap (.atom k)).1 (.atom v)).1 a c := fun a c h => holds_old i1.heap (holds_old i.heap h)
    have hka : Holds (newobj (newobj vm.heap (.atom k)).1 (.atom v)).1 (newobj vm.heap (.atom k)).2 (.atom k) := holds_old i1.heap (holds_new i.heap _)
    have hva : Holds (newobj (newobj vm.heap (.atom k)).1 (.atom v)).1 (newobj (newobj vm.heap (.atom k)).1 (.atom v)).2 (.atom v) := holds_new i1.heap _
    have m1 := m.mono (h' := (newobj (newobj vm.heap (.atom k)).1 (.atom v)).1) (fun a _ x hx => hold a _ hx)
    have new : seenMsg (newobj (newobj vm.heap (.atom k)).1 (.atom v)).1 ⟨id, k, ⟨(newobj vm.heap (.atom k)).2, (newobj (newobj vm.heap (.atom k)).1 (.atom v)).2, e.ts, e.robot⟩⟩ =
        msgOf ⟨s.out.brk, t, id, k, ⟨v, e.ts, e.robot⟩⟩ := by
      unfold seenMsg msgOf seen
      simp only [objAt_holds hva]
    have sub : ∀ x ∈ stigDrop E.sc id k vm.other.puts ++ stigDrop E.sc id k vm.other.queries, x ∈ vm.other.puts ++ vm.other.queries := by
      intro x hx
      rcases List.mem_append.mp hx with hx | hx
      · exact List.mem_append_left _ (List.mem_of_mem_filter hx)
      · exact List.mem_append_right _ (List.mem_of_mem_filter hx)
    have memNew : ∀ x ∈ (stigPush E.sc t ⟨id, k, ⟨(newobj vm.heap (.atom k)).2, (newobj (newobj vm.heap (.atom k)).1 (.atom v)).2, e.ts, e.robot⟩⟩ vm.other).puts ++
        (stigPush E.sc t ⟨id, k, ⟨(newobj vm.heap (.atom k)).2, (newobj (newobj vm.heap (.atom k)).1 (.atom v)).2, e.ts, e.robot⟩⟩ vm.other).queries,
        x ∈ vm.other.puts ++ vm.other.queries ∨ x = ⟨id, k, ⟨(newobj vm.heap (.atom k)).2, (newobj (newobj vm.heap (.atom k)).1 (.atom v)).2, e.ts, e.robot⟩⟩ := by
      intro x hx
      unfold stigPush at hx
      simp only [List.mem_append] at hx
      rcases hx with (hx | hx) | (hx | hx)
      · exact .inl (sub x (List.mem_append_left _ hx))
      · split at hx
        · exact .inr (List.mem_singleton.mp hx)
        · cases hx
      · exact .inl (sub x (List.mem_append_right _ hx))
      · split at hx
        · exact .inr (List.mem_singleton.mp hx)
        · cases hx
    refine ⟨_, _, { s with out := q' }, rfl, by simp [Vstig.queue, h1], ⟨m1.me, iq, ⟨hbc.trans m1.only.1, hlist.trans m1.only.2⟩, m1.stigs, ?_, ?_, ?_⟩, ⟨rfl, rfl, rfl⟩, ?_, hold, rfl⟩
    · show q'.put.map msgOf = (stigDrop E.sc id k vm.other.puts ++ _).map _
      rw [hput, List.map_append, List.map_append, drop_same H sk (fun x hx => (m1.msgs x (List.mem_append_left _ hx)).1) m1.puts]
      congr 1
      cases t <;> simp [new]
    · show q'.query.map msgOf = (stigDrop E.sc id k vm.other.queries ++ _).map _
      rw [hquery, List.map_append, List.map_append, drop_same H sk (fun x hx => (m1.msgs x (List.mem_append_right _ hx)).1) m1.queries]
      congr 1
      cases t <;> simp [new]
    · intro x hx
      rcases memNew x hx with hx | rfl
      · exact m1.msgs x hx
      · exact ⟨sk, hka, ⟨_, hva⟩⟩
    · have i3 : VInv { vm with heap := (newobj (newobj vm.heap (.atom k)).1 (.atom v)).1 } := i2.popN 2
      have all : ∀ x ∈ (stigPush E.sc t ⟨id, k, ⟨(newobj vm.heap (.atom k)).2, (newobj (newobj vm.heap (.atom k)).1 (.atom v)).2, e.ts, e.robot⟩⟩ vm.other).puts ++
          (stigPush E.sc t ⟨id, k, ⟨(newobj vm.heap (.atom k)).2, (newobj (newobj vm.heap (.atom k)).1 (.atom v)).2, e.ts, e.robot⟩⟩ vm.other).queries,
          Live (newobj (newobj vm.heap (.atom k)).1 (.atom v)).1 x.e.key ∧ Live (newobj (newobj vm.heap (.atom k)).1 (.atom v)).1 x.e.data := by
        intro x hx
        rcases memNew x hx with hx | rfl
        · rcases List.mem_append.mp hx with hx | hx
          · exact i3.other.puts x hx
          · exact i3.other.queries x hx
        · exact ⟨⟨_, hka⟩, ⟨_, hva⟩⟩
      have ok : OtherOk (newobj (newobj vm.heap (.atom k)).1 (.atom v)).1
          (stigPush E.sc t ⟨id, k, ⟨(newobj vm.heap (.atom k)).2, (newobj (newobj vm.heap (.atom k)).1 (.atom v)).2, e.ts, e.robot⟩⟩ vm.other) :=
        ⟨i3.other.vstigs, i3.other.listeners, i3.other.bcasts, fun x hx => all x (List.mem_append_left _ hx), fun x hx => all x (List.mem_append_right _ hx)⟩
      exact { i3 with other := ok }

/-! ### One stigmergy -/

theorem stig_ok {st : Stig} {vs : Vs Obj Obj} (i : StigIs S h st vs) : FMap.Ok vs.data := by
  unfold FMap.Ok
  rw [(i.same.map _).nodup_iff, List.map_map]
  have := Dict.entries_uniq Table.eqd_lawful i.wf
  refine List.pairwise_map.mpr (this.imp ?_)
  intro a b hab
  simpa [Table.eqd] using hab

/-- Looking a key up gives the same on both sides. -/
theorem stig_get {sc : Bytes → Bytes → Int} (H : Table.Homog sc S) {st : Stig} {vs : Vs Obj Obj} (i : StigIs S h st vs) {k : Obj} (sk : S k) :
    ∃ r, Table.get sc st.data k = .ok r ∧ FMap.get vs.data k = r.map (seen h) ∧ ∀ x, r = some x → (k, x) ∈ Dict.entries st.data := by
  refine ⟨_, Table.get_spec H i.wf i.keys sk, ?_, ?_⟩
  · cases hf : (Dict.entries st.data).find? (fun e => Table.eqd k e.1) with
    | none =>
      rw [Option.map_none, Option.map_none, FMap.get_eq_none_iff]
      intro hm
      obtain ⟨e, he, hek⟩ := List.mem_map.mp hm
      obtain ⟨d, hd, rfl⟩ := List.mem_map.mp (i.same.mem_iff.mp he)
      have := List.find?_eq_none.mp hf d hd
      simp only [Table.eqd, decide_eq_true_eq] at this
      exact this hek.symm
    | some e =>
      have hk := List.find?_some hf
      simp only [Table.eqd, decide_eq_true_eq] at hk
      rw [Option.map_some, Option.map_some]
      refine FMap.get_of_mem (stig_ok i) (i.same.mem_iff.mpr (List.mem_map.mpr ⟨e, List.mem_of_find?_eq_some hf, ?_⟩))
      rw [hk]
  · intro x hx
    exact List.mem_of_find?_eq_some (find_key hx)

/-- The entries with one replaced, or added. -/
theorem stig_set {st : Stig} {vs : Vs Obj Obj} (i : StigIs S h st vs) {k : Obj} {y : VElem} {t' : Table.Tbl VElem}
    (w : Dict.WF Table.hashN Table.eqd t') (ks : Table.Keys S t')
    (e : (Dict.entries t').Perm ((Dict.entries st.data).filter (fun e => !Table.eqd k e.1) ++ [(k, y)])) (hk : Holds h y.key (.atom k)) (hd : IsAtom h y.data) :
    StigIs S h { st with data := t' } { vs with data := FMap.set vs.data k (seen h y) } where
  plain := i.plain
  plain' := i.plain'
  wf := w
  keys := ks
  atoms x hx := by
    rcases List.mem_append.mp (e.mem_iff.mp hx) with hx | hx
    · exact i.atoms x (List.mem_of_mem_filter hx)
    · cases List.mem_singleton.mp hx
      exact ⟨hk, hd⟩
  same := by
    refine List.Perm.trans ?_ (e.map _).symm
    rw [List.map_append, List.map_singleton]
    refine List.Perm.append_right _ ?_
    refine (i.same.filter _).trans (.of_eq ?_)
    rw [List.filter_map]
    congr 1
    refine List.filter_congr fun x _ => ?_
    simp only [Function.comp_apply, Table.eqd, bne, eq_comm (a := k)]
    rfl

/-- The entries without one. -/
theorem stig_del {st : Stig} {vs : Vs Obj Obj} (i : StigIs S h st vs) {k : Obj} {t' : Table.Tbl VElem}
    (w : Dict.WF Table.hashN Table.eqd t') (ks : Table.Keys S t') (e : (Dict.entries t').Perm ((Dict.entries st.data).filter (fun e => !Table.eqd k e.1))) :
    StigIs S h { st with data := t' } { vs with data := FMap.del vs.data k } where
  plain := i.plain
  plain' := i.plain'
  wf := w
  keys := ks
  atoms x hx := i.atoms x (List.mem_of_mem_filter (e.mem_iff.mp hx))
  same := by
    refine List.Perm.trans ?_ (e.map _).symm
    refine (i.same.filter _).trans (.of_eq ?_)
    rw [List.filter_map]
    congr 1
    refine List.filter_congr fun x _ => ?_
    simp only [Function.comp_apply, Table.eqd, bne, eq_comm (a := k)]
    rfl

/-! ### Steps on both sides -/

/-- A step of the stigmergy code: it only adds objects and changes stigmergies and their queues. -/
structure Done (S : Obj → Prop) (me : Nat) (vm vm' : VM) (s' : Vstig.St Unit Obj Obj) : Prop where
  eq : vm' = { vm with heap := vm'.heap, other := vm'.other }
  inv : VInv vm'
  kept : ∀ a c, Holds vm.heap a c → Holds vm'.heap a c
  listeners : vm'.other.listeners = vm.other.listeners
  bcasts : vm'.other.bcasts = vm.other.bcasts
  mirror : Mirror S me vm'.heap vm'.other s'

theorem Done.refl {vm : VM} (i : VInv vm) (m : Mirror S me vm.heap vm.other s) : Done S me vm vm s := ⟨rfl, i, fun _ _ h => h, rfl, rfl, m⟩

theorem Done.trans {vm vm' vm'' : VM} {s' s'' : Vstig.St Unit Obj Obj} (d : Done S me vm vm' s') (d' : Done S me vm' vm'' s'') : Done S me vm vm'' s'' where
  eq := by
    have h1 := d.eq
    have h2 := d'.eq
    generalize vm'.heap = a1, vm'.other = a2 at h1
    subst h1
    exact h2
  inv := d'.inv
  kept a c h := d'.kept a c (d.kept a c h)
  listeners := d'.listeners.trans d.listeners
  bcasts := d'.bcasts.trans d.bcasts
  mirror := d'.mirror

theorem queue_done {E : Env} (H : Table.Homog E.sc S) {vm : VM} (i : VInv vm) (m : Mirror S me vm.heap vm.other s) (t : VType) (id : Nat) {e : VElem} {k v : Obj}
    (hk : Holds vm.heap e.key (.atom k)) (sk : S k) (hv : Holds vm.heap e.data (.atom v)) :
    ∃ vm' s', stigQueue E t id e vm = .ok vm' ∧ Vstig.queue s t id k ⟨v, e.ts, e.robot⟩ = .ok s' ∧ Done S me vm vm' s' ∧
      vm'.other.vstigs = vm.other.vstigs ∧ s'.vstigs = s.vstigs := by
  obtain ⟨h', o', s', h1, h2, h3, h4, h5, h6, h7⟩ := queue_sim H i m t id hk sk hv
  exact ⟨_, s', h1, h2, ⟨rfl, h5, h6, h4.listeners, h4.bcasts, h3⟩, h4.vstigs, h7⟩

theorem setStig_done {vm : VM} (i : VInv vm) (m : Mirror S me vm.heap vm.other s) (id : Nat) {st : Stig} {vs : Vs Obj Obj} (x : StigIs S vm.heap st vs) :
    Done S me vm (setStig id st vm) { s with vstigs := FMap.set s.vstigs id vs } where
  eq := rfl
  inv := by
    have ok : OtherOk vm.heap { vm.other with vstigs := FMap.set vm.other.vstigs id st } := by
      refine ⟨?_, i.other.listeners, i.other.bcasts, i.other.puts, i.other.queries⟩
      intro e he
      rcases FMap.mem_set.mp he with ⟨he, _⟩ | he
      · exact i.other.vstigs e he
      · subst he
        refine ⟨fun a ha => (by rw [x.plain.1] at ha; cases ha), fun a ha => (by rw [x.plain.2] at ha; cases ha), fun y hy => ?_⟩
        obtain ⟨h1, o, h2⟩ := x.atoms y hy
        exact ⟨⟨_, h1⟩, ⟨_, h2⟩⟩
    exact { i with other := ok }
  kept _ _ h := h
  listeners := rfl
  bcasts := rfl
  mirror := by
    refine ⟨m.me, m.inv, m.only, ?_, m.puts, m.queries, m.msgs⟩
    intro id'
    show StigsAgree S vm.heap (FMap.get (FMap.set vm.other.vstigs id st) id') (FMap.get (FMap.set s.vstigs id vs) id')
    rw [FMap.get_set, FMap.get_set]
    split
    · exact x
    · exact m.stigs id'

theorem stigs_both {S : Obj → Prop} {h : Heap} {o : Other} {id : Nat} {st : Stig} (m : Mirror S me h o s) (hs : FMap.get o.vstigs id = some st) :
    ∃ vs, FMap.get s.vstigs id = some vs ∧ StigIs S h st vs := by
  have := m.stigs id
  rw [hs] at this
  cases h2 : FMap.get s.vstigs id with
  | none => rw [h2] at this; exact this.elim
  | some vs => rw [h2] at this; exact ⟨vs, rfl, this⟩

theorem stigs_none {S : Obj → Prop} {h : Heap} {o : Other} {id : Nat} (m : Mirror S me h o s) (hs : FMap.get o.vstigs id = none) : FMap.get s.vstigs id = none := by
  have := m.stigs id
  rw [hs] at this
  cases h2 : FMap.get s.vstigs id with
  | none => rfl
  | some vs => rw [h2] at this; exact this.elim

/-- Storing a value. -/
theorem store_sim {E : Env} (H : Table.Homog E.sc S) {vm : VM} (i : VInv vm) (m : Mirror S me vm.heap vm.other s) (id : Nat) {ka va : Nat} {k v : Obj}
    (hk : Holds vm.heap ka (.atom k)) (sk : S k) (hv : Holds vm.heap va (.atom v)) :
    ∃ vm' s', stigStore E me id ka va k v vm = .ok vm' ∧ Vstig.put .nil s id k v = .ok s' ∧ Done S me vm vm' s' := by
  unfold stigStore Vstig.put
  cases hs : FMap.get vm.other.vstigs id with
  | none => exact ⟨vm, s, rfl, by rw [stigs_none m hs], Done.refl i m⟩
  | some st =>
    obtain ⟨vs, hvs, x⟩ := stigs_both m hs
    obtain ⟨r, g1, g2, g3⟩ := stig_get H x sk
    simp only [hvs, g1, g2, Res.ok_bind, m.me]
    cases r with
    | none =>
      by_cases hn : v = .nil
      · subst hn
        exact ⟨vm, s, rfl, rfl, Done.refl i m⟩
      · simp only [Option.map_none, ne_eq, hn, not_false_eq_true, if_true]
        obtain ⟨d, p1, p2, p3, p4⟩ := Table.put_spec H x.wf x.keys sk (some (⟨ka, va, 1, me⟩ : VElem))
        have p1 : Table.set E.sc st.data k ⟨ka, va, 1, me⟩ = .ok d := p1
        rw [p1, Res.ok_bind]
        have x' := stig_set x p2 p3 p4 hk ⟨v, hv⟩
        have d1 := setStig_done i m id x'
        obtain ⟨vm', s', q1, q2, q3, _, _⟩ := queue_done H d1.inv d1.mirror .put id (e := ⟨ka, va, 1, me⟩) hk sk hv
        refine ⟨vm', s', q1, ?_, d1.trans q3⟩
        rw [← q2]
        unfold Vstig.store seen
        rw [objAt_holds hv]
    | some e =>
      have hm := g3 e rfl
      have hts : (seen vm.heap e).ts = e.ts := rfl
      by_cases hn : v = .nil
      · subst hn
        simp only [Option.map_some, ne_eq, not_true_eq_false, if_false, hts]
        obtain ⟨vm', s', q1, q2, q3, q4, q5⟩ := queue_done H i m .put id (e := ⟨ka, va, (e.ts + 1) % U16, me⟩) hk sk hv
        have q2 : Vstig.queue s .put id k ⟨.nil, (e.ts + 1) % U16, me⟩ = .ok s' := q2
        rw [q1, q2, Res.ok_bind, Res.ok_bind]
        obtain ⟨d, p1, p2, p3, p4⟩ := Table.put_spec H x.wf x.keys sk (none : Option VElem)
        have p1 : Table.remove E.sc st.data k = .ok d := p1
        rw [p1, Res.ok_bind]
        have x1 : StigIs S vm'.heap st vs := x.mono (fun _ _ a _ o ho => q3.kept a _ ho)
        have x' := stig_del (k := k) x1 p2 p3 (by simpa using p4)
        exact ⟨_, _, rfl, rfl, q3.trans (setStig_done q3.inv q3.mirror id x')⟩
      · simp only [Option.map_some, ne_eq, hn, not_false_eq_true, if_true, hts]
        obtain ⟨d, p1, p2, p3, p4⟩ := touch_spec H x.wf x.keys sk (fun x => { x with data := va, ts := (x.ts + 1) % U16, robot := me }) g1
        rw [p1, Res.ok_bind]
        have x' := stig_set x p2 p3 p4 (x.atoms _ hm).1 ⟨v, hv⟩
        have d1 := setStig_done i m id x'
        obtain ⟨vm', s', q1, q2, q3, _, _⟩ := queue_done H d1.inv d1.mirror .put id (e := ⟨ka, va, (e.ts + 1) % U16, me⟩) hk sk hv
        refine ⟨vm', s', q1, ?_, d1.trans q3⟩
        rw [← q2]
        unfold Vstig.store seen
        rw [objAt_holds hv]

/-! ### A message that arrives -/

/-- Adding a copy of a number, string or nil. -/
theorem clone_done {E : Env} {vm : VM} (i : VInv vm) (m : Mirror S me vm.heap vm.other s) {a : Nat} {x : Obj} (hx : Holds vm.heap a (.atom x)) :
    ∃ h' b, clone E.sc (vm.heap.objs.length + 1) vm.heap a = .ok (h', b) ∧ Done S me vm { vm with heap := h' } s ∧ Holds h' b (.atom x) := by
  have i1 : VInv { vm with heap := (newobj vm.heap (.atom x)).1 } := (i.push (i.cells _ _ hx)).popN 1
  exact ⟨_, _, clone_atom i.heap hx _, ⟨rfl, i1, fun _ _ h => holds_old i.heap h, rfl, rfl, m.mono (fun _ _ _ h => holds_old i.heap h)⟩, holds_new i.heap _⟩

/-- Storing an entry and queueing the message about it. -/
theorem set_queue_sim {E : Env} (H : Table.Homog E.sc S) {vm : VM} (i : VInv vm) (m : Mirror S me vm.heap vm.other s) (id : Nat) {st : Stig} {vs : Vs Obj Obj}
    (x : StigIs S vm.heap st vs) {e : VElem} {k d : Obj} (hk : Holds vm.heap e.key (.atom k)) (sk : S k) (hd : Holds vm.heap e.data (.atom d)) :
    ∃ vm1 vm' s', stigSet E id st k e vm = .ok vm1 ∧ stigQueue E .put id e vm1 = .ok vm' ∧
      Vstig.queue (Vstig.store s id vs k ⟨d, e.ts, e.robot⟩) .put id k ⟨d, e.ts, e.robot⟩ = .ok s' ∧ Done S me vm vm' s' := by
  obtain ⟨t, p1, p2, p3, p4⟩ := Table.put_spec H x.wf x.keys sk (some e)
  have p1 : Table.set E.sc st.data k e = .ok t := p1
  have x' := stig_set x p2 p3 p4 hk ⟨d, hd⟩
  have d1 := setStig_done i m id x'
  obtain ⟨vm', s', q1, q2, q3, _, _⟩ := queue_done H d1.inv d1.mirror .put id hk sk hd
  refine ⟨_, vm', s', by unfold stigSet; rw [p1]; rfl, q1, ?_, d1.trans q3⟩
  rw [← q2]
  unfold Vstig.store seen
  rw [objAt_holds hd]

theorem resolve_sim {E : Env} {mgr : Nat → VElem → VElem → VM → Res (VM × Option VElem)} {vm : VM} (i : VInv vm) (m : Mirror S me vm.heap vm.other s)
    {st : Stig} {vs : Vs Obj Obj} (x : StigIs S vm.heap st vs) {k : Obj} {l v : VElem} {a b : Obj} (ha : Holds vm.heap l.data (.atom a)) (hb : Holds vm.heap v.data (.atom b)) :
    ∃ vm1 c y, stigResolve E mgr st l v vm = .ok (vm1, some c) ∧ Vstig.resolve .nil vs k ⟨a, l.ts, l.robot⟩ ⟨b, v.ts, v.robot⟩ = some ⟨y, c.ts, c.robot⟩ ∧
      Done S me vm vm1 s ∧ vm1.other = vm.other ∧ Holds vm1.heap c.data (.atom y) := by
  obtain ⟨ma, a1, a2⟩ := holds_deref ha
  obtain ⟨mb, b1, b2⟩ := holds_deref hb
  have a3 : objOf l.data ma.cell = a := by rw [a2]; rfl
  have b3 : objOf v.data mb.cell = b := by rw [b2]; rfl
  have pick : ∃ e y, (if (a = .nil ↔ b = .nil) then (if l.robot > v.robot then l else v) else if a ≠ .nil then l else v) = e ∧
      Holds vm.heap e.data (.atom y) ∧ Vstig.resolve .nil vs k ⟨a, l.ts, l.robot⟩ ⟨b, v.ts, v.robot⟩ = some ⟨y, e.ts, e.robot⟩ := by
    unfold Vstig.resolve
    rw [x.plain'.1]
    by_cases hna : a = .nil <;> by_cases hnb : b = .nil <;> by_cases hr : l.robot > v.robot <;>
      simp only [hna, hnb, hr, iff_true, iff_false, if_true, if_false, not_true_eq_false, not_false_eq_true, ne_eq, and_self, or_self, true_and, false_and, and_true, and_false, or_true, or_false]
    all_goals first
      | exact ⟨l, a, rfl, ha, by rw [hna]⟩
      | exact ⟨v, b, rfl, hb, by rw [hnb]⟩
      | exact ⟨l, a, rfl, ha, rfl⟩
      | exact ⟨v, b, rfl, hb, rfl⟩
  obtain ⟨e, y, e1, e2, e3⟩ := pick
  obtain ⟨h', q, c1, c2, c3⟩ := clone_done (E := E) i m e2
  refine ⟨{ vm with heap := h' }, { e with data := q }, y, ?_, e3, c2, rfl, c3⟩
  unfold stigResolve
  rw [x.plain.1]
  simp only [a1, b1, Res.ok_bind, a3, b3, e1, c1]
  rfl

theorem conflict_sim {E : Env} (H : Table.Homog E.sc S) {mgr : Nat → VElem → VElem → VM → Res (VM × Option VElem)} {hook : Nat → VElem → VM → Res VM} {vm : VM}
    (i : VInv vm) (m : Mirror S me vm.heap vm.other s) (id : Nat) {st : Stig} {vs : Vs Obj Obj} (hs : FMap.get vm.other.vstigs id = some st)
    (x : StigIs S vm.heap st vs) {k : Obj} (sk : S k) {l v : VElem} {a b : Obj} (hl : Table.get E.sc st.data k = .ok (some l))
    (ha : Holds vm.heap l.data (.atom a)) (hk : Holds vm.heap v.key (.atom k)) (hb : Holds vm.heap v.data (.atom b)) :
    ∃ vm' s', stigConflict E me mgr hook id st k l v vm = .ok vm' ∧
      Vstig.conflict .nil s id vs k ⟨a, l.ts, l.robot⟩ ⟨b, v.ts, v.robot⟩ = .ok s' ∧ Done S me vm vm' s' := by
  obtain ⟨vm1, c, y, r1, r2, r3, r4, r5⟩ := resolve_sim (E := E) (mgr := mgr) (k := k) i m x ha hb
  have x1 : StigIs S vm1.heap st vs := x.mono (fun _ _ a _ o ho => r3.kept a _ ho)
  unfold stigConflict Vstig.conflict
  rw [r1, r2, Res.ok_bind]
  have stamp : ∀ l c, stigStamp st l c = c := fun l c => by unfold stigStamp; rw [x.plain.1]; rfl
  simp only [r4, hs, hl, Res.ok_bind, x.plain'.2, Bool.false_eq_true, and_false, if_false, x.plain.2, stamp]
  by_cases hc : c.robot ≠ me ∧ l.robot = me
  · rw [if_pos hc]
    obtain ⟨h2, q, c1, c2, _⟩ := clone_done (E := E) r3.inv r3.mirror (r3.kept _ _ ha)
    have x2 : StigIs S h2 st vs := x1.mono (fun _ _ a _ o ho => c2.kept a _ ho)
    obtain ⟨vm2, vm', s', t1, t2, t3, t4⟩ := set_queue_sim (E := E) H c2.inv c2.mirror id x2 (e := { c with key := v.key }) (c2.kept _ _ (r3.kept _ _ hk)) sk (c2.kept _ _ r5)
    refine ⟨vm', s', ?_, t3, (r3.trans c2).trans t4⟩
    rw [c1]
    simp only [r4] at t1
    simp only [Res.ok_bind, t1, Res.pure_eq]
    exact t2
  · rw [if_neg hc]
    obtain ⟨vm2, vm', s', t1, t2, t3, t4⟩ := set_queue_sim (E := E) H r3.inv r3.mirror id x1 (e := { c with key := v.key }) (r3.kept _ _ hk) sk r5
    refine ⟨vm', s', ?_, t3, r3.trans t4⟩
    simp only [Res.ok_bind, t1]
    exact t2

/-- A message that arrives does the same on both sides. -/
theorem recv_sim {E : Env} (H : Table.Homog E.sc S) {mgr : Nat → VElem → VElem → VM → Res (VM × Option VElem)} {hook : Nat → VElem → VM → Res VM} {vm : VM}
    (i : VInv vm) (m : Mirror S me vm.heap vm.other s) (t : VType) (id : Nat) {v : VElem} {k b : Obj} (hk : Holds vm.heap v.key (.atom k)) (sk : S k)
    (hb : Holds vm.heap v.data (.atom b)) :
    ∃ vm' s', stigRecv E me mgr hook t id v vm = .ok vm' ∧ Vstig.recv .nil s t id k ⟨b, v.ts, v.robot⟩ = .ok s' ∧ Done S me vm vm' s' := by
  obtain ⟨km, k1, k2⟩ := holds_deref hk
  have k3 : objOf v.key km.cell = k := by rw [k2]; rfl
  obtain ⟨bm, b1, b2⟩ := holds_deref hb
  have b3 : objOf v.data bm.cell = b := by rw [b2]; rfl
  unfold stigRecv
  cases hs : FMap.get vm.other.vstigs id with
  | none =>
    have hn := stigs_none m hs
    cases t with
    | put => exact ⟨vm, s, rfl, by simp only [Vstig.recv, Vstig.recvPut, hn], Done.refl i m⟩
    | query =>
      obtain ⟨vm', s', q1, q2, q3, _⟩ := queue_done H i m .query id hk sk hb
      exact ⟨vm', s', q1, by simp only [Vstig.recv, Vstig.recvQuery, hn, q2], q3⟩
  | some st =>
    obtain ⟨vs, hvs, x⟩ := stigs_both m hs
    obtain ⟨r, g1, g2, g3⟩ := stig_get H x sk
    simp only [k1, Res.ok_bind, k3, g1]
    obtain ⟨vm1, vm', s', t1, t2, t3, t4⟩ := set_queue_sim (E := E) H i m id x hk sk hb
    cases r with
    | none =>
      simp only [Option.map_none] at g2
      simp only [b1, Res.ok_bind, b3]
      by_cases hn : t = .query ∧ b = .nil
      · rw [if_pos hn]
        obtain ⟨rfl, rfl⟩ := hn
        obtain ⟨vm', s', q1, q2, q3, _⟩ := queue_done H i m .query id hk sk hb
        exact ⟨vm', s', q1, by simp only [Vstig.recv, Vstig.recvQuery, hvs, g2, if_true, q2], q3⟩
      · rw [if_neg hn]
        refine ⟨vm', s', by rw [t1, Res.ok_bind, t2], ?_, t4⟩
        cases t with
        | put => simp only [Vstig.recv, Vstig.recvPut, hvs, g2, t3]
        | query =>
          have : b ≠ .nil := fun h => hn ⟨rfl, h⟩
          simp only [Vstig.recv, Vstig.recvQuery, hvs, g2, this, if_false, t3]
    | some l =>
      have hm := g3 l rfl
      obtain ⟨a, ha⟩ := (x.atoms _ hm).2
      have hsl : seen vm.heap l = ⟨a, l.ts, l.robot⟩ := by unfold seen; rw [objAt_holds ha]
      rw [Option.map_some, hsl] at g2
      by_cases h1 : l.ts < v.ts
      · simp only [h1, if_true]
        refine ⟨vm', s', by rw [t1, Res.ok_bind, t2], ?_, t4⟩
        cases t with
        | put => simp only [Vstig.recv, Vstig.recvPut, hvs, g2, h1, if_true, t3]
        | query => simp only [Vstig.recv, Vstig.recvQuery, hvs, g2, h1, if_true, t3]
      · by_cases h2 : t = .query ∧ l.ts > v.ts
        · simp only [h1, h2, and_self, if_true, if_false]
          obtain ⟨rfl, h2⟩ := h2
          obtain ⟨vm', s', q1, q2, q3, _⟩ := queue_done H i m .put id (e := { l with key := v.key }) hk sk ha
          refine ⟨vm', s', q1, ?_, q3⟩
          simp only [Vstig.recv, Vstig.recvQuery, hvs, g2, h1, h2, if_true, if_false]
          exact q2
        · simp only [h1, h2, if_false]
          by_cases h3 : l.ts = v.ts ∧ l.robot ≠ v.robot
          · obtain ⟨vm', s', q1, q2, q3⟩ := conflict_sim (mgr := mgr) (hook := hook) H i m id hs x sk g1 ha hk hb
            refine ⟨vm', s', by rw [if_pos h3, q1], ?_, q3⟩
            have h4 : ¬ l.ts > v.ts := by omega
            cases t with
            | put => simp only [Vstig.recv, Vstig.recvPut, hvs, g2, h1, if_false, if_pos h3, q2]
            | query => simp only [Vstig.recv, Vstig.recvQuery, hvs, g2, h1, h4, if_false, if_pos h3, q2]
          · refine ⟨vm, s, by rw [if_neg h3]; rfl, ?_, Done.refl i m⟩
            cases t with
            | put => simp only [Vstig.recv, Vstig.recvPut, hvs, g2, h1, if_false, if_neg h3]
            | query =>
              have h4 : ¬ l.ts > v.ts := fun h => h2 ⟨rfl, h⟩
              simp only [Vstig.recv, Vstig.recvQuery, hvs, g2, h1, h4, if_false, if_neg h3]

/-! ### The methods -/

/-- The machine has entered a C function as the method of an object. -/
structure Method (vm : VM) (obj : Nat) (args : List Nat) : Prop where
  inv : VInv vm
  ready : vm.state = .ready
  ex : ∃ f fs p st r q, vm.frames = f :: fs ∧ f.syms = obj :: args ∧ vm.rest = (p :: st) :: r ∧ Holds vm.heap p (.atom (.int q))

theorem Method.entry {vm : VM} {self : Nat} {args : List Nat} (e : Method vm self args) : Entry vm args :=
  ⟨e.inv, e.ready, by obtain ⟨f, fs, p, st, r, q, h⟩ := e.ex; exact ⟨f, fs, self, p, st, r, q, h⟩⟩

/-- The object is a table whose field `id` is this number. -/
def HasId (E : Env) (vm : VM) (self id : Nat) : Prop :=
  ∃ t sid x, Holds vm.heap self (.tab t) ∧ Strman.get vm.strings sid = some (ascii "id") ∧ Table.get E.sc t (.str sid (ascii "id")) = .ok (some x) ∧
    Holds vm.heap x.2 (.atom (.int id)) ∧ id < 65536

/-- The function has returned to its caller; stigmergies and their queues are as in `s`. -/
structure Answers (S : Obj → Prop) (me : Nat) (vm w : VM) (c : Cell) (s : Vstig.St Unit Obj Obj) : Prop where
  ready : w.state = .ready
  ex : ∃ f p st a q, vm.frames = f :: w.frames ∧ vm.rest = (p :: st) :: w.rest ∧ Holds vm.heap p (.atom (.int q)) ∧ w.pc = q ∧ w.stack = a :: st ∧ Holds w.heap a c
  gsyms : w.gsyms = vm.gsyms
  code : w.code = vm.code
  nfuns : w.nfuns = vm.nfuns
  listeners : w.other.listeners = vm.other.listeners
  bcasts : w.other.bcasts = vm.other.bcasts
  heap : ∀ a c, Holds vm.heap a c → Holds w.heap a c
  strs : ∀ j s, Strman.get vm.strings j = some s → Strman.get w.strings j = some s
  inv : VInv w
  mirror : Mirror S me w.heap w.other s

/-- The machine at entry with the heap, strings and queues of later. -/
def atEnd (vm u : VM) : VM := { vm with heap := u.heap, strings := u.strings, other := u.other }

theorem atEnd_inv {vm u : VM} (i : VInv vm) (iu : VInv u) (k : ∀ a c, Holds vm.heap a c → Holds u.heap a c) : VInv (atEnd vm u) where
  heap := iu.heap
  strings := iu.strings
  cells := iu.cells
  stack a ha := by obtain ⟨c, hc⟩ := i.stack a ha; exact ⟨c, k _ _ hc⟩
  rest s hs a ha := by obtain ⟨c, hc⟩ := i.rest s hs a ha; exact ⟨c, k _ _ hc⟩
  frames f hf a ha := by obtain ⟨c, hc⟩ := i.frames f hf a ha; exact ⟨c, k _ _ hc⟩
  gsyms e he := by obtain ⟨c, hc⟩ := i.gsyms e he; exact ⟨c, k _ _ hc⟩
  other := iu.other
  depth := i.depth
  size := i.size
  pcr := i.pcr

theorem atEnd_entry {vm u : VM} {args : List Nat} (e : Entry vm args) (iu : VInv u) (k : ∀ a c, Holds vm.heap a c → Holds u.heap a c) : Entry (atEnd vm u) args := by
  refine ⟨atEnd_inv e.inv iu k, e.ready, ?_⟩
  obtain ⟨f, fs, self, p, st, r, q, h1, h2, h3, h4⟩ := e.ex
  exact ⟨f, fs, self, p, st, r, q, h1, h2, h3, k _ _ h4⟩

theorem done_work {vm u u' : VM} {s' : Vstig.St Unit Obj Obj} (w : Work vm u) (d : Done S me u u' s') : Work (atEnd vm u') u' where
  rest := by rw [d.eq]; exact w.rest
  frames := by rw [d.eq]; exact w.frames
  gsyms := by rw [d.eq]; exact w.gsyms
  code := by rw [d.eq]; exact w.code
  other := rfl
  nfuns := by rw [d.eq]; exact w.nfuns
  state := by rw [d.eq]; exact w.state
  heap _ _ h := h
  strs _ _ h := h
  inv := d.inv

theorem done_answers {vm u u' x : VM} {c : Cell} {args : List Nat} {s' : Vstig.St Unit Obj Obj} (e : Entry vm args) (w : Work vm u) (d : Done S me u u' s') (g : Gives (atEnd vm u') x c) :
    Answers S me vm x c s' where
  ready := g.ready
  ex := by
    obtain ⟨f, p, st, a, q, h1, h2, h3, h4⟩ := g.ex
    obtain ⟨f0, fs0, self0, p0, st0, r0, q0, k1, k2, k3, k4⟩ := e.ex
    have h2 : vm.rest = (p :: st) :: x.rest := h2
    have : p0 = p := by rw [k3] at h2; simp only [List.cons.injEq] at h2; exact h2.1.1
    subst this
    have h5 := holds_inj h3 (d.kept _ _ (w.heap _ _ k4))
    have : q = q0 := by injection h5 with h5; injection h5
    subst this
    exact ⟨f, p0, st, a, q, h1, h2, k4, h4⟩
  gsyms := g.gsyms
  code := g.code
  nfuns := g.nfuns
  listeners := by rw [g.other]; exact d.listeners.trans (congrArg _ w.other)
  bcasts := by rw [g.other]; exact d.bcasts.trans (congrArg _ w.other)
  heap a c h := g.heap _ _ (d.kept _ _ (w.heap _ _ h))
  strs j s h := g.strs _ _ (by have := w.strs _ _ h; show Strman.get u'.strings j = some s; rw [d.eq]; exact this)
  inv := g.inv
  mirror := by
    rw [g.other]
    exact d.mirror.mono (fun a _ y hy => g.heap _ _ hy)

theorem finish0 {vm u u' : VM} {args : List Nat} {s' : Vstig.St Unit Obj Obj} (e : Entry vm args) (w : Work vm u) (d : Done S me u u' s') :
    ∃ x, ret0 u' = .ok x ∧ Answers S me vm x (.atom .nil) s' := by
  obtain ⟨x, h1, h2⟩ := ret0_gives (atEnd_entry e d.inv (fun a c h => d.kept _ _ (w.heap a c h))) (done_work w d)
  exact ⟨x, h1, done_answers e w d h2⟩

theorem finish1 {vm u u' : VM} {args : List Nat} {s' : Vstig.St Unit Obj Obj} {c : Cell} (e : Entry vm args) (w : Work vm u) (d : Done S me u u' s') (h : At u' 0 c) :
    ∃ x, ret1 u' = .ok x ∧ Answers S me vm x c s' := by
  obtain ⟨x, h1, h2⟩ := ret1_gives (atEnd_entry e d.inv (fun a c h => d.kept _ _ (w.heap a c h))) (done_work w d) h
  exact ⟨x, h1, done_answers e w d h2⟩

/-- Reading the number of the stigmergy. -/
theorem stigId_spec {E : Env} {vm : VM} {self id : Nat} {args : List Nat} (e : Method vm self args) (hid : HasId E vm self id) (hz : vm.strings.id2str.length ≤ 65533) :
    ∃ u, stigId E vm = .ok (u, id) ∧ Work vm u := by
  obtain ⟨t, sid, x, t1, t2, t3, t4, t5⟩ := hid
  obtain ⟨f, fs, p, st, r, q, hf, hs, hr, hq⟩ := e.ex
  have w1 := (Work.refl e.inv).pushAddr ⟨_, t1⟩
  obtain ⟨sm', j, r1, r2, _, r4, r5, r6⟩ := register_inv e.inv.strings hz (ascii "id") true
  have hj : j = sid := same_id r2 r4 (r6 _ _ t2)
  subst hj
  have iv := w1.inv.setStrings r2 r6
  have w2 : Work vm (VM.push { VM.pushAddr vm self with strings := sm' } (.atom (.str j (ascii "id")))) :=
    { w1 with heap := fun a c h => holds_old w1.inv.heap (w1.heap a c h), inv := iv.push r4, strs := fun j x h => r6 j x (w1.strs j x h) }
  have hx := w2.heap _ _ t4
  refine ⟨VM.pushAddr (popN (VM.push { VM.pushAddr vm self with strings := sm' } (.atom (.str j (ascii "id")))) 2) x.2, ?_,
    { w2 with inv := (w2.inv.popN 2).pushAddr ⟨_, hx⟩ }⟩
  unfold stigId
  rw [lload_at hf (k := 0) (a := self) (by rw [hs]; rfl), Res.ok_bind]
  have pn : pushName "id" { vm with stack := self :: vm.stack } = .ok (VM.push { VM.pushAddr vm self with strings := sm' } (.atom (.str j (ascii "id")))) := by
    unfold pushName pushS
    rw [r1]
    simp only [Res.ok_bind, Nat.mod_eq_of_lt r5, r4]
    rfl
  rw [pn, Res.ok_bind]
  have a1 : At (VM.push { VM.pushAddr vm self with strings := sm' } (.atom (.str j (ascii "id")))) 0 (.atom (.str j (ascii "id"))) := ⟨_, rfl, holds_new e.inv.heap _⟩
  have a2 : At (VM.push { VM.pushAddr vm self with strings := sm' } (.atom (.str j (ascii "id")))) 1 (.tab t) := ⟨self, rfl, w2.heap _ _ t1⟩
  have tg : tget E (VM.push { VM.pushAddr vm self with strings := sm' } (.atom (.str j (ascii "id")))) =
      .ok (VM.pushAddr (popN (VM.push { VM.pushAddr vm self with strings := sm' } (.atom (.str j (ascii "id")))) 2) x.2) := by
    obtain ⟨b1, _, _, _, _, c1⟩ := At.peekCell a1
    obtain ⟨b2, _, _, _, c2, _⟩ := At.peekCell a2
    have c1 : peek (VM.push { VM.pushAddr vm self with strings := sm' } (.atom (.str j (ascii "id")))) 1 = .ok (.str j (ascii "id")) := c1
    have c2 : peekCell (VM.push { VM.pushAddr vm self with strings := sm' } (.atom (.str j (ascii "id")))) 2 = .ok (.tab t) := c2
    unfold tget need
    rw [if_neg (by show ¬ (((_ :: self :: vm.stack).length : Nat) : Int) - 2 < 0; simp only [List.length_cons]; omega), c2, Res.ok_bind]
    simp only [c1, Res.ok_bind, isKey, t3, if_true]
    rfl
  have pk : peek (VM.pushAddr (popN (VM.push { VM.pushAddr vm self with strings := sm' } (.atom (.str j (ascii "id")))) 2) x.2) 1 = .ok (.int id) := (peek_top hx _).1
  rw [tg, Res.ok_bind, pk, Res.ok_bind]
  simp only [Res.pure_eq]
  congr 2
  omega

theorem put_sim {E : Env} (H : Table.Homog E.sc S) {vm : VM} {self id ka va : Nat} {k v : Obj} (e : Method vm self [ka, va]) (hid : HasId E vm self id)
    (hz : vm.strings.id2str.length ≤ 65533) (m : Mirror S me vm.heap vm.other s) (hk : Holds vm.heap ka (.atom k)) (sk : S k) (hv : Holds vm.heap va (.atom v)) :
    ∃ w s', stigPut E me vm = .ok w ∧ Vstig.put .nil s id k v = .ok s' ∧ Answers S me vm w (.atom .nil) s' := by
  obtain ⟨u, u1, wu⟩ := stigId_spec e hid hz
  obtain ⟨l1, w1, p1⟩ := e.entry.load (k := 0) wu rfl hk
  obtain ⟨l2, w2, p2⟩ := e.entry.load (k := 1) w1 rfl hv
  have m2 : Mirror S me (pushAddr (pushAddr u ka) va).heap (pushAddr (pushAddr u ka) va).other s := by
    rw [w2.other]; exact m.mono (fun a _ y hy => w2.heap _ _ hy)
  obtain ⟨u3, s', q1, q2, q3⟩ := store_sim H w2.inv m2 id (w2.heap _ _ hk) sk (w2.heap _ _ hv)
  obtain ⟨x, r1, r2⟩ := finish0 e.entry w2 q3
  refine ⟨x, s', ?_, q2, r2⟩
  unfold stigPut
  rw [e.entry.lnum, Res.ok_bind, if_neg (by simp), u1, Res.ok_bind]
  simp only
  rw [l1, Res.ok_bind, show peekAddr (pushAddr u ka) 1 = .ok ka from rfl, Res.ok_bind, p1, Res.ok_bind, l2, Res.ok_bind,
    show peekAddr (pushAddr (pushAddr u ka) va) 1 = .ok va from rfl, Res.ok_bind, p2, Res.ok_bind]
  simp only [objOf]
  rw [q1, Res.ok_bind, r1]

theorem get_sim {E : Env} (H : Table.Homog E.sc S) {vm : VM} {self id ka : Nat} {k : Obj} (e : Method vm self [ka]) (hid : HasId E vm self id)
    (hz : vm.strings.id2str.length ≤ 65533) (m : Mirror S me vm.heap vm.other s) (hk : Holds vm.heap ka (.atom k)) (sk : S k) :
    ∃ w s' v, stigGet E me vm = .ok w ∧ Vstig.get .nil s id k = .ok (v, s') ∧ Answers S me vm w (.atom v) s' := by
  obtain ⟨u, u1, wu⟩ := stigId_spec e hid hz
  obtain ⟨l1, w1, p1⟩ := e.entry.load (k := 0) wu rfl hk
  have m1 : Mirror S me (pushAddr u ka).heap (pushAddr u ka).other s := by
    rw [w1.other]; exact m.mono (fun a _ y hy => w1.heap _ _ hy)
  have wn : Work vm (pushNil (pushAddr u ka)) := (w1.push (c := .atom .nil) trivial).1
  have an : At (pushNil (pushAddr u ka)) 0 (.atom .nil) := (w1.push (c := .atom .nil) trivial).2
  have mn : Mirror S me (pushNil (pushAddr u ka)).heap (pushNil (pushAddr u ka)).other s := by
    rw [wn.other]; exact m.mono (fun a _ y hy => wn.heap _ _ hy)
  unfold stigGet Vstig.get
  rw [e.entry.lnum, Res.ok_bind, if_neg (by simp), u1, Res.ok_bind]
  simp only
  rw [l1, Res.ok_bind, show peekAddr (pushAddr u ka) 1 = .ok ka from rfl, Res.ok_bind, p1, Res.ok_bind, w1.other]
  simp only [objOf]
  cases hs : FMap.get vm.other.vstigs id with
  | none =>
    obtain ⟨x, r1, r2⟩ := finish1 e.entry wn (Done.refl wn.inv mn) an
    exact ⟨x, s, .nil, r1, by rw [stigs_none m hs], r2⟩
  | some st =>
    obtain ⟨vs, hvs, y⟩ := stigs_both m hs
    obtain ⟨r, g1, g2, g3⟩ := stig_get H y sk
    simp only [hvs, g1, g2, Res.ok_bind]
    cases r with
    | none =>
      obtain ⟨a, a1, a2⟩ := an
      have a3 : peekAddr (pushNil (pushAddr u ka)) 1 = .ok a := by
        unfold peekAddr; rw [if_pos (by omega)]; simp only [Int.toNat_one, Nat.sub_self]; rw [a1]
      obtain ⟨u3, s', q1, q2, q3, _⟩ := queue_done H wn.inv mn .query id (e := ⟨ka, a, 0, me⟩) (wn.heap _ _ hk) sk a2
      have at3 : At u3 0 (.atom .nil) := ⟨a, by rw [q3.eq]; exact a1, q3.kept _ _ a2⟩
      obtain ⟨x, r1, r2⟩ := finish1 e.entry wn q3 at3
      refine ⟨x, s', .nil, ?_, ?_, r2⟩
      · simp only [a3, Res.ok_bind, q1, r1]
      · simp only [Option.map_none, m.me, q2, Res.ok_bind]; rfl
    | some l =>
      obtain ⟨d, hd⟩ := (y.atoms _ (g3 l rfl)).2
      have wl := w1.pushAddr ⟨_, hd⟩
      have ml : Mirror S me (pushAddr (pushAddr u ka) l.data).heap (pushAddr (pushAddr u ka) l.data).other s := by
        rw [wl.other]; exact m.mono (fun a _ y hy => wl.heap _ _ hy)
      obtain ⟨u3, s', q1, q2, q3, _⟩ := queue_done H wl.inv ml .query id (e := ⟨ka, l.data, l.ts, l.robot⟩) (wl.heap _ _ hk) sk (wl.heap _ _ hd)
      have at3 : At u3 0 (.atom d) := ⟨l.data, by rw [q3.eq]; rfl, q3.kept _ _ (wl.heap _ _ hd)⟩
      obtain ⟨x, r1, r2⟩ := finish1 e.entry wl q3 at3
      have hsl : seen vm.heap l = ⟨d, l.ts, l.robot⟩ := by unfold seen; rw [objAt_holds hd]
      refine ⟨x, s', d, ?_, ?_, r2⟩
      · simp only [q1, Res.ok_bind, r1]
      · simp only [Option.map_some, hsl, q2, Res.ok_bind]; rfl

theorem size_sim {E : Env} {vm : VM} {self id : Nat} (e : Method vm self []) (hid : HasId E vm self id) (hz : vm.strings.id2str.length ≤ 65533)
    (m : Mirror S me vm.heap vm.other s) (hn : Vstig.size s id < 2147483648) :
    ∃ w, stigSize E vm = .ok w ∧ Answers S me vm w (.atom (.int (Vstig.size s id))) s := by
  obtain ⟨u, u1, wu⟩ := stigId_spec e hid hz
  have key : ∀ n : Nat, n < 2147483648 → ∃ w, ret1 (pushInt u n) = .ok w ∧ Answers S me vm w (.atom (.int n)) s := by
    intro n hn
    have ok : CellOk u.heap u.strings (.atom (.int (n : Int))) := by show I32 _; unfold I32; omega
    have w1 := wu.push ok
    have m1 : Mirror S me (pushInt u n).heap (pushInt u n).other s := by
      show Mirror S me (VM.push u _).heap (VM.push u _).other s
      rw [w1.1.other]; exact m.mono (fun a _ y hy => w1.1.heap _ _ hy)
    exact finish1 e.entry w1.1 (Done.refl w1.1.inv m1) w1.2
  unfold stigSize
  rw [e.entry.lnum, Res.ok_bind, if_neg (by simp), u1, Res.ok_bind]
  simp only [wu.other]
  unfold Vstig.size at hn ⊢
  cases hs : FMap.get vm.other.vstigs id with
  | none =>
    rw [stigs_none m hs]
    exact key 0 (by omega)
  | some st =>
    obtain ⟨vs, hvs, y⟩ := stigs_both m hs
    rw [hvs] at hn ⊢
    simp only at hn ⊢
    have hl : st.data.size = vs.data.length := by
      have hl := y.same.length_eq
      rw [List.length_map] at hl
      rw [y.wf.size_eq, ← hl]
      exact Nat.mod_eq_of_lt (show vs.data.length < 4294967296 by omega)
    rw [hl, Nat.mod_eq_of_lt (by omega)]
    have : intOfU32 vs.data.length = (vs.data.length : Int) := by unfold intOfU32; rw [if_pos (by omega)]
    rw [this]
    exact key _ hn

end Buzz.VM
