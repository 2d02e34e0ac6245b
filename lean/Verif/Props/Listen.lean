import Verif.Listen
import Mathlib.Data.List.Forall2

/-
C52: received broadcasts reach the listener last registered for their topic.
C57: an object sent by one robot arrives as an object with the same content at another.
C18 for the heap: deserialisation of arbitrary bytes.
-/
namespace Buzz.Props

open Buzz.F32 Buzz.Msg Buzz.Heap Buzz.Value Buzz.VM Buzz.HeapWire

/-! ## C57 -/

/-- The entry stands for this pair. -/
def EntryIs (h : Heap) (lo : Nat) (e : Obj × (Nat × Nat)) (x : Val × Val) : Prop :=
  Holds h e.2.1 (.atom e.1) ∧ Repr h lo e.2.1 x.1 ∧ Repr h lo e.2.2 x.2

theorem reprE_iff {h : Heap} {lo : Nat} : ∀ {l : List (Obj × (Nat × Nat))} {es : Ents}, ReprE h lo l es ↔ List.Forall₂ (EntryIs h lo) l es.toList
  | [], .nil => ⟨fun _ => .nil, fun _ => .nil⟩
  | [], .cons _ _ _ => ⟨fun h => (nomatch h), fun h => (nomatch h)⟩
  | _ :: _, .nil => ⟨fun h => (nomatch h), fun h => (nomatch h)⟩
  | (ko, (ka, va)) :: l, .cons k v r => by
    constructor
    · rintro (_ | ⟨h1, h2, h3, h4⟩)
      exact .cons ⟨h1, h2, h3⟩ (reprE_iff.mp h4)
    · rintro (_ | ⟨⟨h1, h2, h3⟩, h4⟩)
      exact .cons h1 h2 h3 (reprE_iff.mpr h4)

/-- Two objects that share one tree share all. -/
def Transfers (v : Val) : Prop := ∀ (h h' : Heap) (lo lo' a b : Nat), Repr h lo a v → Repr h' lo' b v → ∀ v', Repr h lo a v' → Repr h' lo' b v'

theorem forall2_mem {α β : Type} {R : α → β → Prop} {l : List α} {m : List β} (h : List.Forall₂ R l m) : List.Forall₂ (fun a b => b ∈ m ∧ R a b) l m := by
  induction h with
  | nil => exact .nil
  | cons h1 _ ih => exact .cons ⟨List.mem_cons_self .., h1⟩ (ih.imp fun _ _ h => ⟨List.mem_cons_of_mem _ h.1, h.2⟩)

theorem forall2_zip {α β γ : Type} {R : α → γ → Prop} {S : β → γ → Prop} {l : List α} {m : List β} {es : List γ} (h1 : List.Forall₂ R l es)
    (h2 : List.Forall₂ S m es) : List.Forall₂ (fun a b => ∃ x ∈ es, R a x ∧ S b x) l m := by
  induction h1 generalizing m with
  | nil => cases h2; exact .nil
  | cons r _ ih =>
    cases h2 with
    | cons s h2 =>
      exact .cons ⟨_, List.mem_cons_self .., r, s⟩ ((ih h2).imp fun _ _ ⟨x, h, h'⟩ => ⟨x, List.mem_cons_of_mem _ h, h'⟩)

theorem forall2_perm {α β : Type} {R : α → β → Prop} {l l' : List α} {m : List β} (h : List.Forall₂ R l m) (p : l'.Perm l) :
    ∃ m', m'.Perm m ∧ List.Forall₂ R l' m' := by
  induction p generalizing m with
  | nil => cases h; exact ⟨[], .refl _, .nil⟩
  | cons x _ ih =>
    cases h with
    | cons r h => obtain ⟨m', h1, h2⟩ := ih h; exact ⟨_, h1.cons _, .cons r h2⟩
  | swap x y l =>
    cases h with
    | cons r h => cases h with | cons s h => exact ⟨_, .swap _ _ _, .cons s (.cons r h)⟩
  | trans _ _ ih1 ih2 =>
    obtain ⟨m1, h1, h2⟩ := ih2 h
    obtain ⟨m2, h3, h4⟩ := ih1 h2
    exact ⟨m2, h3.trans h1, h4⟩

theorem holds_same {h : Heap} {a : Nat} {c c' : Cell} (h1 : Holds h a c) (h2 : Holds h a c') : c = c' := holds_inj h1 h2

mutual
theorem transfers : ∀ v : Val, Transfers v
  | .nil => fun h h' lo lo' a b r s v' q => by
    cases r with | nil _ r => cases s with | nil g s => cases q with
      | nil => exact .nil g s
      | int _ q => cases holds_same r q
      | flt _ q => cases holds_same r q
      | str _ q => cases holds_same r q
      | user _ q => cases holds_same r q
      | table _ q => cases holds_same r q
      | clo _ q => cases holds_same r q
  | .int v => fun h h' lo lo' a b r s v' q => by
    cases r with | int _ r => cases s with | int g s => cases q with
      | nil _ q => cases holds_same r q
      | int _ q => cases holds_same r q; exact .int g s
      | flt _ q => cases holds_same r q
      | str _ q => cases holds_same r q
      | user _ q => cases holds_same r q
      | table _ q => cases holds_same r q
      | clo _ q => cases holds_same r q
  | .flt v => fun h h' lo lo' a b r s v' q => by
    cases r with | flt _ r => cases s with | flt g s => cases q with
      | nil _ q => cases holds_same r q
      | int _ q => cases holds_same r q
      | flt _ q => cases holds_same r q; exact .flt g s
      | str _ q => cases holds_same r q
      | user _ q => cases holds_same r q
      | table _ q => cases holds_same r q
      | clo _ q => cases holds_same r q
  | .str v => fun h h' lo lo' a b r s v' q => by
    cases r with | str _ r => cases s with | str g s => cases q with
      | nil _ q => cases holds_same r q
      | int _ q => cases holds_same r q
      | flt _ q => cases holds_same r q
      | str _ q => cases holds_same r q; exact .str g s
      | user _ q => cases holds_same r q
      | table _ q => cases holds_same r q
      | clo _ q => cases holds_same r q
  | .user v => fun h h' lo lo' a b r s v' q => by
    cases r with | user _ r => cases s with | user g s => cases q with
      | nil _ q => cases holds_same r q
      | int _ q => cases holds_same r q
      | flt _ q => cases holds_same r q
      | str _ q => cases holds_same r q
      | user _ q => cases holds_same r q; exact .user g s
      | table _ q => cases holds_same r q
      | clo _ q => cases holds_same r q
  | .clo n f k => fun h h' lo lo' a b r s v' q => by
    have s0 := s
    cases r with | clo _ r => cases q with
      | nil _ q => cases holds_same r q
      | int _ q => cases holds_same r q
      | flt _ q => cases holds_same r q
      | str _ q => cases holds_same r q
      | user _ q => cases holds_same r q
      | table _ q => cases holds_same r q
      | clo _ q => cases holds_same r q; exact s0
  | .table es => fun h h' lo lo' a b r s v' q => by
    cases r with | table _ r rp re => cases s with | table g s sp se => cases q with
      | nil _ q => cases holds_same r q
      | int _ q => cases holds_same r q
      | flt _ q => cases holds_same r q
      | str _ q => cases holds_same r q
      | user _ q => cases holds_same r q
      | clo _ q => cases holds_same r q
      | table _ q qp qe =>
        cases holds_same r q
        have z := forall2_zip (reprE_iff.mp re) (reprE_iff.mp se)
        obtain ⟨m', h1, h2⟩ := forall2_perm z (qp.trans rp.symm)
        refine .table g s (h1.trans sp) (reprE_iff.mpr ?_)
        have e := reprE_iff.mp qe
        have te := transfersE es
        generalize Ents.toList _ = vs at e
        clear z h1 sp se qe qp
        induction h2 generalizing vs with
        | nil => cases e; exact .nil
        | cons hx _ ih =>
          cases e with
          | cons e1 e2 =>
            obtain ⟨x, hm, hr, hs⟩ := hx
            refine .cons ⟨hs.1, ?_, ?_⟩ (ih _ e2)
            · exact (te x hm).1 _ _ _ _ _ _ hr.2.1 hs.2.1 _ e1.2.1
            · exact (te x hm).2 _ _ _ _ _ _ hr.2.2 hs.2.2 _ e1.2.2
theorem transfersE : ∀ es : Ents, ∀ x ∈ es.toList, Transfers x.1 ∧ Transfers x.2
  | .nil => fun x hx => by cases hx
  | .cons k v r => fun x hx => by
    simp only [Ents.toList, List.mem_cons] at hx
    rcases hx with rfl | hx
    · exact ⟨transfers k, transfers v⟩
    · exact transfersE r x hx
end

/-- **C57** an object written by one robot and read by another: if every tree it stands for can be sent, then writing succeeds, and
reading the bytes from any buffer around them into any valid heap gives an object that stands for exactly the same trees (tables with the same
keys and values, strings with the same characters, equal numbers), leaving everything that was in the receiver's heap as it was. -/
theorem C57_transfer {sc : Bytes → Bytes → Int} {h : Heap} {a : Nat} {v : Val} (hs : Sized h) (hr : Repr h 0 a v)
    (hw : ∀ v, Repr h 0 a v → WireOk (realKeq sc) v) :
    ∃ d bs, (∀ d', d ≤ d' → hser h d' a = .ok bs) ∧
      ∀ (pre post : Bytes) (h1 : Heap) (sm : SM), HeapWire.WInv h1 sm → (∀ v, Repr h 0 a v → sm.id2str.length + strs v ≤ 65534) →
        ∃ h' sm' b, hdeser sc (pre ++ bs ++ post) (pre.length + bs.length + 1) pre.length h1 sm = .ok ⟨h', sm', some b, some (pre.length + bs.length)⟩ ∧
          (∀ v, Repr h' 0 b v ↔ Repr h 0 a v) ∧ (∀ x c, Holds h1 x c → Holds h' x c) ∧ HeapWire.WInv h' sm' ∧ h1.brk ≤ b := by
  obtain ⟨v, d, r, hd⟩ := hser_spec hs hr
  obtain ⟨bs, hb, hl, _⟩ := deser_ser (realKeq sc) v (hw v r)
  refine ⟨d, bs, fun d' h => (hd d' h).trans hb, fun pre post h1 sm w hz => ?_⟩
  obtain ⟨h', sm', b, h2, h3⟩ := hdeser_ser sc v (hw v r) r.bools bs hb (pre.length + bs.length + 1) (by omega) pre post h1 sm w (hz v r)
  have rb : Repr h' 0 b v := h3.repr.mono (Nat.zero_le _) (fun _ _ _ h => h)
  exact ⟨h', sm', b, h2, fun x => ⟨transfers v _ _ _ _ _ _ rb r x, transfers v _ _ _ _ _ _ r rb x⟩, fun x c => Ext.holds w.heap h3.grow.ext,
    h3.inv, h3.repr.lo⟩

/-! ## C18 in the heap -/

/-- **C18** arbitrary bytes deserialised into a valid heap: the call ends; when it ends normally the heap is valid, nothing in it has changed and
the object lies behind it; otherwise the buffer contains the cause. -/
theorem C18_heap_safe (sc : Bytes → Bytes → Int) (buf : Bytes) (pos : Nat) {h : Heap} {sm : SM} (w : HeapWire.WInv h sm) (hz : sm.id2str.length + (buf.length - pos) ≤ 65534) :
    match hdeser sc buf (buf.length + 1) pos h sm with
    | .ok g => HeapWire.WInv g.h g.sm ∧ (∀ x c, Holds h x c → Holds g.h x c) ∧ (∀ j s, Strman.get sm j = some s → Strman.get g.sm j = some s) ∧
        (∀ a, g.data = some a → h.brk ≤ a ∧ ∃ c, Holds g.h a c) ∧ (∀ p, g.pos = some p → pos < p ∧ p ≤ buf.length ∧ g.data.isSome)
    | .ub => ∃ e, Value.Bad buf pos e
    | .abort => ∃ i, pos ≤ i ∧ buf[i]? = some 4
    | .hang => False := by
  have f := hdeser_fate sc buf (buf.length + 1) pos h sm w hz (by omega) (by omega)
  cases hq : hdeser sc buf (buf.length + 1) pos h sm with
  | ok g =>
    rw [hq] at f
    exact ⟨f.inv, fun x c => Ext.holds w.heap f.grow.ext, f.grow.strs, fun a ha => ⟨(f.data a ha).2, (f.data a ha).1⟩,
      fun p hp => ⟨(f.next p hp).1, (f.next p hp).2.1, (f.next p hp).2.2.1⟩⟩
  | ub => rw [hq] at f; exact f
  | abort => rw [hq] at f; exact f
  | hang => rw [hq] at f; exact f

/-! ## C52 -/

/-- The closure is the one last registered for the topic, and the topic has not been ignored since. -/
def Subscribed (log : List Ev) (s : Bytes) (c : Nat) : Prop := ∃ before after, log = before ++ Ev.listen s c :: after ∧ ∀ e ∈ after, e.topic ≠ s

theorem subscribed_snoc {log : List Ev} {e : Ev} {s : Bytes} {c : Nat} :
    Subscribed (log ++ [e]) s c ↔ e = .listen s c ∨ (e.topic ≠ s ∧ Subscribed log s c) := by
  constructor
  · rintro ⟨b, a, h1, h2⟩
    rcases List.eq_nil_or_concat a with rfl | ⟨a', x, rfl⟩
    · exact .inl (List.singleton_injective (List.append_inj_right' h1 rfl))
    · rw [List.concat_eq_append, ← List.cons_append, ← List.append_assoc] at h1
      have hx : e = x := List.singleton_injective (List.append_inj_right' h1 rfl)
      subst hx
      exact .inr ⟨h2 e (by simp), b, a', List.append_inj_left' h1 rfl, fun y hy => h2 y (by simp [hy])⟩
  · rintro (rfl | ⟨h, b, a, rfl, h2⟩)
    · exact ⟨log, [], rfl, by simp⟩
    · refine ⟨b, a ++ [e], by simp, fun y hy => ?_⟩
      rcases List.mem_append.mp hy with hy | hy
      · exact h2 y hy
      · simp only [List.mem_singleton] at hy; subst hy; exact h

/-- The string table is valid and every topic with a listener is in it. -/
def Topics (vm : VM) : Prop := Strman.Inv vm.strings ∧ ∀ sid c, FMap.get vm.other.listeners sid = some c → ∃ s, Strman.get vm.strings sid = some s

theorem same_id {sm : SM} (i : Strman.Inv sm) {j k : Nat} {s : Bytes} (h1 : Strman.get sm j = some s) (h2 : Strman.get sm k = some s) : j = k := by
  unfold Strman.get at h1 h2
  obtain ⟨⟨x, p⟩, g1, rfl⟩ := Option.map_eq_some_iff.mp h1
  obtain ⟨⟨y, q⟩, g2, e⟩ := Option.map_eq_some_iff.mp h2
  simp only at e
  subst e
  have := i.back _ _ _ g1
  rw [i.back _ _ _ g2] at this
  exact (Option.some.inj this).symm

/-- **C52** what listens is decided by the calls of `listen` and `ignore`: whatever else the machine does on its way (instructions, other C
functions, collections), a closure listens to a topic exactly if it is the one last registered for these characters and they have not been
ignored since. -/
theorem C52_history {log : List Ev} {vm w : VM} (i : Strman.Inv vm.strings) (h0 : vm.other.listeners = []) (t : Trace log vm w) (s : Bytes) (c : Nat) :
    Listens w s c ↔ Subscribed log s c := by
  have key : ∀ {log : List Ev} {vm w : VM}, Trace log vm w → ∀ pre, Topics vm → (∀ s c, Listens vm s c ↔ Subscribed pre s c) →
      Topics w ∧ ∀ s c, Listens w s c ↔ Subscribed (pre ++ log) s c := by
    intro log vm w t
    induction t with
    | @quiet vm vm' k =>
      intro pre T h
      refine ⟨⟨k.strings T.1, fun sid c hc => ?_⟩, fun s c => ?_⟩
      · rw [k.listeners] at hc
        obtain ⟨s, hs⟩ := T.2 sid c hc
        exact ⟨s, k.topics sid c s hc hs⟩
      · rw [List.append_nil, ← h]
        constructor
        · rintro ⟨sid, h1, h2⟩
          rw [k.listeners] at h2
          obtain ⟨s', hs'⟩ := T.2 sid c h2
          have := k.topics sid c s' h2 hs'
          rw [h1] at this
          cases this
          exact ⟨sid, hs', h2⟩
        · rintro ⟨sid, h1, h2⟩
          exact ⟨sid, k.topics sid c s h2 h1, by rw [k.listeners]; exact h2⟩
    | @listen vm vm' f fs self t c sid s n r l i hf hs ht hc hw =>
      intro pre T h
      rw [listen_ok hf hs ht hc] at hw
      have u := ret0_unt { vm with stack := c :: t :: vm.stack, other := { vm.other with listeners := FMap.set vm.other.listeners sid c } }
      rw [hw] at u
      have hsid : Strman.get vm.strings sid = some s := i.cells _ _ ht
      have u1 : vm'.strings = vm.strings := u.1
      have u2 : vm'.other.listeners = FMap.set vm.other.listeners sid c := by rw [u.2]
      refine ⟨⟨by rw [u1]; exact T.1, fun j d hd => ?_⟩, fun s' c' => ?_⟩
      · rw [u2, FMap.get_set] at hd
        rw [u1]
        split at hd
        · rename_i e; subst e; exact ⟨s, hsid⟩
        · exact T.2 j d hd
      · rw [subscribed_snoc, ← h]
        constructor
        · rintro ⟨j, h1, h2⟩
          rw [u1] at h1
          rw [u2, FMap.get_set] at h2
          split at h2
          · rename_i e
            subst e
            rw [hsid] at h1
            cases h1; cases h2
            exact .inl rfl
          · rename_i hne
            refine .inr ⟨fun e => hne ?_, j, h1, h2⟩
            have e : s = s' := e
            subst e
            exact same_id T.1 h1 hsid
        · rintro (e | ⟨hne, j, h1, h2⟩)
          · cases e
            exact ⟨sid, by rw [u1]; exact hsid, by rw [u2]; simp⟩
          · refine ⟨j, by rw [u1]; exact h1, ?_⟩
            rw [u2, FMap.get_set, if_neg ?_]
            · exact h2
            · rintro rfl
              rw [hsid] at h1
              cases h1
              exact hne rfl
    | @ignore vm vm' f fs self t sid s i hf hs ht hw =>
      intro pre T h
      rw [ignore_ok hf hs ht] at hw
      have u := ret0_unt { vm with stack := t :: vm.stack, other := { vm.other with listeners := FMap.del vm.other.listeners sid } }
      rw [hw] at u
      have hsid : Strman.get vm.strings sid = some s := i.cells _ _ ht
      have u1 : vm'.strings = vm.strings := u.1
      have u2 : vm'.other.listeners = FMap.del vm.other.listeners sid := by rw [u.2]
      refine ⟨⟨by rw [u1]; exact T.1, fun j d hd => ?_⟩, fun s' c' => ?_⟩
      · rw [u2, FMap.get_del] at hd
        rw [u1]
        split at hd
        · cases hd
        · exact T.2 j d hd
      · rw [subscribed_snoc, ← h]
        constructor
        · rintro ⟨j, h1, h2⟩
          rw [u1] at h1
          rw [u2, FMap.get_del] at h2
          split at h2
          · cases h2
          · rename_i hne
            refine .inr ⟨fun e => hne ?_, j, h1, h2⟩
            have e : s = s' := e
            subst e
            exact same_id T.1 h1 hsid
        · rintro (e | ⟨hne, j, h1, h2⟩)
          · cases e
          · refine ⟨j, by rw [u1]; exact h1, ?_⟩
            rw [u2, FMap.get_del, if_neg ?_]
            · exact h2
            · rintro rfl
              rw [hsid] at h1
              cases h1
              exact hne rfl
    | trans _ _ ih1 ih2 =>
      intro pre T h
      obtain ⟨a, b⟩ := ih1 pre T h
      obtain ⟨c, d⟩ := ih2 _ a b
      rw [List.append_assoc] at d
      exact ⟨c, d⟩
  have e0 : ∀ s c, Listens vm s c ↔ Subscribed [] s c := by
    intro s c
    constructor
    · rintro ⟨_, _, h⟩
      rw [h0] at h
      cases h
    · rintro ⟨b, a, h, _⟩
      simp at h
  have := (key t [] ⟨i, fun sid c h => by rw [h0] at h; cases h⟩ e0).2 s c
  rwa [List.nil_append] at this

/-- **C52** every execution has such a history, if the C functions other than `listen` and `ignore` leave listeners and the string table's
topics alone. -/
theorem C52_runs {E : Env} {F : CFuns} (hF : FOk F) (hT : FTrace F) {vm w : VM} (i : VInv vm) (p : vm.state = .ready → PcIn vm) (h : Reached E F vm w) :
    ∃ log, Trace log vm w := by
  induction h with
  | here => exact ⟨[], .quiet (Untouched.refl _).kept⟩
  | step r e ih =>
    obtain ⟨l, tl⟩ := ih
    obtain ⟨l', tl'⟩ := step_trace hT (r.fine hF i p).1 e
    exact ⟨_, tl.trans tl'⟩

/-- `listen` and `ignore` themselves are such functions, and keep memory valid. -/
theorem C52_functions (a b : Nat) (G : CFuns) (hG : FOk G) (hK : FTrace G) :
    FOk (fun n => if n = a then neighborsListen else if n = b then neighborsIgnore else G n) ∧
    FTrace (fun n => if n = a then neighborsListen else if n = b then neighborsIgnore else G n) := by
  constructor
  · intro n v w i hr h
    simp only at h
    split at h
    · exact listen_inv i hr h
    · split at h
      · exact ignore_inv i hr h
      · exact hG n v w i hr h
  · intro n v w i h
    simp only at h
    split at h
    · exact listen_trace i h
    · split at h
      · exact ignore_trace i h
      · exact hK n v w i h

/-- The payload of a broadcast (buzzoutmsg.c 365-377). -/
def broadcastBytes (topic value : Bytes) : Bytes := ser8 0 ++ topic ++ value

theorem winv {vm : VM} (i : VInv vm) : HeapWire.WInv vm.heap vm.strings := ⟨i.heap, i.strings, i.cells⟩

theorem vinv_grow {vm : VM} (i : VInv vm) {h : Heap} {sm : SM} (w : HeapWire.WInv h sm) (g : Grow vm.heap vm.strings h sm) :
    VInv { vm with heap := h, strings := sm } := by
  have hl : ∀ a, Live vm.heap a → Live h a := fun a ⟨c, hc⟩ => ⟨c, Ext.holds i.heap g.ext hc⟩
  exact { i with
    heap := w.heap, strings := w.strings, cells := w.cells
    stack := fun a ha => hl a (i.stack a ha)
    rest := fun s hs a ha => hl a (i.rest s hs a ha)
    frames := fun f hf a ha => hl a (i.frames f hf a ha)
    gsyms := fun e he => hl _ (i.gsyms e he)
    other := i.other.mono hl }

/-- The topic of a broadcast as read by the receiver. -/
theorem topic_read {E : Env} {vm : VM} {s bt bv : Bytes} (i : VInv vm) (hs : WireOk (realKeq E.sc) (.str s)) (ht : ser (.str s) = .ok bt)
    (hz : vm.strings.id2str.length + 1 ≤ 65534) :
    ∃ h' sm' t sid, hdeser E.sc (broadcastBytes bt bv) ((broadcastBytes bt bv).length + 1) 1 vm.heap vm.strings = .ok ⟨h', sm', some t, some (1 + bt.length)⟩ ∧
      HeapWire.WInv h' sm' ∧ Grow vm.heap vm.strings h' sm' ∧ sm'.id2str.length ≤ vm.strings.id2str.length + 1 ∧ Holds h' t (.atom (.str sid s)) := by
  obtain ⟨h', sm', t, h1, h2⟩ := hdeser_ser E.sc (.str s) hs trivial bt ht ((broadcastBytes bt bv).length + 1) (by simp [depth]) (ser8 0) bv
    vm.heap vm.strings (winv i) hz
  cases h2.repr with
  | @str _ sid _ _ hh => exact ⟨h', sm', t, sid, h1, h2.inv, h2.grow, h2.count, hh⟩

/-- **C52** a broadcast nobody listens to only adds objects and strings: nothing is called. -/
theorem C52_ignored {E : Env} {F : CFuns} {fuel rid : Nat} {vm : VM} {s bt bv : Bytes} (i : VInv vm)
    (hs : WireOk (realKeq E.sc) (.str s)) (ht : ser (.str s) = .ok bt) (hz : vm.strings.id2str.length + 1 ≤ 65534)
    (hl : Topics vm) (hn : ∀ c, ¬ Listens vm s c) :
    ∃ h' sm', onBroadcast E F fuel (broadcastBytes bt bv) rid vm = .ok { vm with heap := h', strings := sm' } ∧
      VInv { vm with heap := h', strings := sm' } ∧ (∀ a c, Holds vm.heap a c → Holds h' a c) ∧
      (∀ j x, Strman.get vm.strings j = some x → Strman.get sm' j = some x) := by
  obtain ⟨h', sm', t, sid, h1, w, g, _, hh⟩ := topic_read (bv := bv) i hs ht hz
  obtain ⟨m, hd, hm⟩ := holds_deref hh
  have hsid : Strman.get sm' sid = some s := w.cells _ _ hh
  have hnone : FMap.get vm.other.listeners sid = none := by
    cases hq : FMap.get vm.other.listeners sid with
    | none => rfl
    | some c =>
      obtain ⟨x, hx⟩ := hl.2 sid c hq
      have := g.strs _ _ hx
      rw [hsid] at this
      cases this
      exact absurd ⟨sid, hx, hq⟩ (hn c)
  refine ⟨h', sm', ?_, vinv_grow i w g, fun a c => Ext.holds i.heap g.ext, g.strs⟩
  unfold onBroadcast
  rw [h1, Res.ok_bind]
  simp only
  rw [hd, Res.ok_bind]
  simp only [hm, hnone]
  rfl

/-- **C52** a broadcast somebody listens to: the registered closure, and nothing else, is called with the topic, the value and the sender's id,
and its result is dropped. -/
theorem C52_called {E : Env} {F : CFuns} {fuel rid c : Nat} {vm : VM} {s bt bv : Bytes} {v : Val} (i : VInv vm)
    (hs : WireOk (realKeq E.sc) (.str s)) (ht : ser (.str s) = .ok bt) (hv : WireOk (realKeq E.sc) v) (hb : Bools v) (hbv : ser v = .ok bv)
    (hz : vm.strings.id2str.length + 1 + strs v ≤ 65534) (hrid : rid < 65536) (hl : Listens vm s c) :
    ∃ h' sm' sid t x r, onBroadcast E F fuel (broadcastBytes bt bv) rid vm = (do
        let w ← closureCall E F fuel 3 { vm with heap := h', strings := sm', stack := r :: x :: t :: c :: vm.stack }
        pure (pop w)) ∧
      Holds h' t (.atom (.str sid s)) ∧ Repr h' 0 x v ∧ Holds h' r (.atom (.int rid)) ∧
      VInv { vm with heap := h', strings := sm', stack := r :: x :: t :: c :: vm.stack } ∧ (∀ a c, Holds vm.heap a c → Holds h' a c) ∧
      (∀ j x, Strman.get vm.strings j = some x → Strman.get sm' j = some x) := by
  obtain ⟨h1, sm1, t, sid, e1, w1, g1, n1, hh⟩ := topic_read (bv := bv) i hs ht (by omega)
  obtain ⟨m, hd, hm⟩ := holds_deref hh
  have hsid : Strman.get sm1 sid = some s := w1.cells _ _ hh
  obtain ⟨sid0, k1, k2⟩ := hl
  have : sid0 = sid := same_id w1.strings (g1.strs _ _ k1) hsid
  subst this
  obtain ⟨bs, hb', hlen, _⟩ := deser_ser (realKeq E.sc) v hv
  rw [hbv] at hb'
  cases hb'
  obtain ⟨h2, sm2, x, e2, l2⟩ := hdeser_ser E.sc v hv hb bv hbv ((broadcastBytes bt bv).length + 1) (by simp [broadcastBytes]; omega) (ser8 0 ++ bt) []
    h1 sm1 w1 (by omega)
  have hpos : (ser8 0 ++ bt).length = 1 + bt.length := by simp [ser8, Nat.add_comm]
  rw [hpos, List.append_nil] at e2
  have ck : VM.CellOk h2 sm2 (.atom (.int rid)) := by show I32 rid; unfold I32; omega
  have w3 := l2.inv.alloc ck
  have g3 := (g1.trans l2.grow).trans (grow_alloc l2.inv (.atom (.int rid)))
  have ho : ∀ {a c}, Holds h2 a c → Holds (newobj h2 (.atom (.int rid))).1 a c := fun h => holds_old l2.inv.heap h
  have hx : Repr (newobj h2 (.atom (.int rid))).1 0 x v := l2.repr.mono (Nat.zero_le _) (fun _ _ _ h => ho h)
  have ht2 : Holds (newobj h2 (.atom (.int rid))).1 t (.atom (.str sid0 s)) := ho (Ext.holds w1.heap l2.grow.ext hh)
  have hxl : Live (newobj h2 (.atom (.int rid))).1 x := by cases hx <;> exact ⟨_, by assumption⟩
  have hr : Holds (newobj h2 (.atom (.int rid))).1 (newobj h2 (.atom (.int rid))).2 (.atom (.int rid)) := holds_new l2.inv.heap _
  refine ⟨(newobj h2 (.atom (.int rid))).1, sm2, sid0, t, x, (newobj h2 (.atom (.int rid))).2, ?_, ht2, hx, hr, ?_, fun a c h => Ext.holds i.heap g3.ext h, g3.strs⟩
  · unfold onBroadcast
    rw [e1, Res.ok_bind]
    simp only
    rw [hd, Res.ok_bind]
    simp only [hm, k2]
    have : hdeser E.sc (broadcastBytes bt bv) ((broadcastBytes bt bv).length + 1) (1 + bt.length) h1 sm1 = _ := e2
    rw [this, Res.ok_bind]
  · have i3 := vinv_grow i w3 g3
    have hcl : Live (newobj h2 (.atom (.int rid))).1 c := by
      have := i3.other.listeners (sid0, c) (FMap.mem_of_get k2)
      exact this
    exact (((i3.pushAddr hcl).pushAddr ⟨_, ht2⟩).pushAddr hxl).pushAddr ⟨_, hr⟩

/-- **C52** for a script closure: it starts with topic, value and sender's id as its arguments, and when it has returned the machine is as before the
message, with the same stacks, symbols and program counter. -/
theorem C52_script_closure {E : Env} {F : CFuns} (hF : FOk F) {fuel rid c : Nat} {vm w : VM} {s bt bv : Bytes} {v : Val} {ref : Int} {l : List Nat} (i : VInv vm)
    (hst : vm.state = .ready)
    (hs : WireOk (realKeq E.sc) (.str s)) (ht : ser (.str s) = .ok bt) (hv : WireOk (realKeq E.sc) v) (hb : Bools v) (hbv : ser v = .ok bv)
    (hz : vm.strings.id2str.length + 1 + strs v ≤ 65534) (hrid : rid < 65536) (hl : Listens vm s c) (hc : Holds vm.heap c (.clo true ref l)) :
    ∃ (u b : VM) (sid t x r : Nat), Begins F 3 u b ∧ b.pc = ref ∧ b.frames = ⟨l ++ [t, x, r], false⟩ :: vm.frames ∧ b.stack = [] ∧
      Holds b.heap t (.atom (.str sid s)) ∧ Repr b.heap 0 x v ∧ Holds b.heap r (.atom (.int rid)) ∧
      (onBroadcast E F fuel (broadcastBytes bt bv) rid vm = .ok w → w.state = .ready →
        (∀ a d, Reached E F b a → step E F a = .ok d → d.state = .ready → CReturns a d) →
        w.stack = vm.stack ∧ w.rest = vm.rest ∧ w.frames = vm.frames ∧ w.pc = vm.pc ∧ w.code = vm.code ∧ VInv w ∧
        ∀ a, (a ∈ vm.stack ∨ (∃ s ∈ vm.rest, a ∈ s) ∨ ∃ f ∈ vm.frames, a ∈ f.syms) → ∀ o, Holds vm.heap a (.atom o) → Holds w.heap a (.atom o)) := by
  obtain ⟨h', sm', sid, t, x, r, e, k1, k2, k3, iu, kh, ks⟩ := C52_called (F := F) (fuel := fuel) i hs ht hv hb hbv hz hrid hl
  have hcu : At { vm with heap := h', strings := sm', stack := r :: x :: t :: c :: vm.stack } 3 (.clo true ref l) := ⟨c, rfl, kh _ _ hc⟩
  obtain ⟨y, hy⟩ : ∃ y, insertSelf { vm with heap := h', strings := sm', stack := r :: x :: t :: c :: vm.stack } 3 = .ok y := by
    unfold insertSelf
    rw [if_neg (by simp)]
    exact ⟨_, rfl⟩
  obtain ⟨iy, hn, hat, hd, hre, hfr, hpc, hco, hsta, hss, hnf, htk, hk⟩ := insertSelf_ok iu (by omega) hcu hy
  have hcall := call_native (F := F) (sw := false) hn (by omega) hat
  have hkp : ∀ {a c}, Holds h' a c → Holds (newobj (pushInt y (intOfU32 3)).heap (.atom (.int (pushInt y (intOfU32 3)).pc))).1 a c :=
    fun h => holds_old iy.heap (hk _ _ h)
  have hbegin : Begins F 3 { vm with heap := h', strings := sm', stack := r :: x :: t :: c :: vm.stack }
      { enter (popN (pushInt y (intOfU32 3)) 1) 3 l false with pc := ref } := ⟨y, hy, hcall⟩
  refine ⟨_, { enter (popN (pushInt y (intOfU32 3)) 1) 3 l false with pc := ref }, sid, t, x, r, hbegin, rfl, ?_, rfl, hkp k1, k2.mono (le_refl _) (fun _ _ _ h => hkp h), hkp k3, ?_⟩
  · show (⟨l ++ (((pushInt y (intOfU32 3)).stack.drop 1).take 3).reverse, false⟩ : Frame) :: (pushInt y (intOfU32 3)).frames = _
    rw [htk, hfr]
    rfl
  · intro hw hr hC
    rw [e] at hw
    obtain ⟨z, h1, h2⟩ := Res.bind_eq_ok.mp hw
    simp only [Res.pure_eq, Res.ok.injEq] at h2
    have hzr : z.state = .ready := by
      subst h2
      unfold pop at hr
      split at hr
      · cases hr
      · exact hr
    have res := C36_script_closure hF iu hst (by omega) hcu h1 hzr (fun v hv a b => by
      obtain ⟨y', hy', hc'⟩ := hv
      rw [hy] at hy'
      cases hy'
      rw [hcall] at hc'
      cases hc'
      exact hC a b)
    obtain ⟨q, hq⟩ := res.stack
    have hp : w = popN z 1 := by
      subst h2
      unfold pop
      rw [hq]
      rfl
    subst hp
    refine ⟨?_, res.rest, res.frames, res.pc, res.code, res.inv.popN 1, ?_⟩
    · show z.stack.drop 1 = vm.stack
      rw [hq]
      rfl
    · intro a ha o ho
      exact res.values a ha o (kh _ _ ho)

/-- **C52** defect: the topic's type is not checked.  A message whose topic is not a string, or that ends before it, is undefined on every machine. -/
theorem C52_malformed_topic (E : Env) (F : CFuns) (fuel rid : Nat) (vm : VM) (i : VInv vm) :
    onBroadcast E F fuel [0, 0] rid vm = .ub ∧ onBroadcast E F fuel [0] rid vm = .ub := by
  constructor
  · have h : hdeser E.sc [0, 0] 3 1 vm.heap vm.strings = .ok ⟨(newobj vm.heap (.atom .nil)).1, vm.strings, some (newobj vm.heap (.atom .nil)).2, some 2⟩ := rfl
    obtain ⟨m, hd, hm⟩ := holds_deref (holds_new i.heap (.atom .nil))
    unfold onBroadcast
    rw [show ([0, 0] : Bytes).length + 1 = 3 from rfl, h, Res.ok_bind]
    simp only
    rw [hd, Res.ok_bind]
    simp only [hm]
  · rfl

/-- The script `neighbors.listen("t", function(topic, value, id) { g = value })`: string ids 0 is `t`, 1 is `g`, function 0 is `listen`. -/
def listenScript : Bytes := [2, 0, 116, 0, 103, 0, 2, 39, 0, 0, 0, 0, 37, 0, 0, 0, 0, 38, 30, 0, 0, 0, 36, 2, 0, 0, 0, 33, 4, 1,
  37, 1, 0, 0, 0, 41, 2, 0, 0, 0, 29, 5]

/-- The machine after the script. -/
def listening : Res VM := do
  let vm ← load host listenScript VM.new
  let vm ← VM.run host (fun _ => neighborsListen) 100 { vm with nfuns := 1 }
  pure { vm with state := .ready }

/-- What `g` is after a message, and the stack. -/
def afterMessage (buf : Bytes) : Res (Option Obj × List Nat × State) := do
  let vm ← listening
  let vm ← onBroadcast host (fun _ => neighborsListen) 100 buf 5 vm
  match FMap.get vm.gsyms 1 with
  | none => pure (none, vm.stack, vm.state)
  | some a => do
    let m ← deref vm.heap a
    pure (some (objOf a m.cell), vm.stack, vm.state)

/-- A broadcast for `t` runs the closure, one for `u` does not; a truncated value is passed on all the same. -/
example : afterMessage [0, 3, 0, 1, 116, 1, 0, 0, 0, 7] = .ok (some (.int 7), [], .ready) ∧
    afterMessage [0, 3, 0, 1, 117, 1, 0, 0, 0, 7] = .ok (none, [], .ready) ∧
    afterMessage [0, 3, 0, 1, 116, 1, 0, 0] = .ok (some (.int 0), [], .ready) := by decide +kernel

/-- These are the bytes of a broadcast. -/
example : (ser (.str [116]), ser (.int 7)) = (.ok [3, 0, 1, 116], .ok [1, 0, 0, 0, 7]) ∧
    broadcastBytes [3, 0, 1, 116] [1, 0, 0, 0, 7] = [0, 3, 0, 1, 116, 1, 0, 0, 0, 7] := by decide +kernel

/-- The listener of the machine. -/
example : (do let vm ← listening; pure ((FMap.get vm.other.listeners 0).isSome, Strman.get vm.strings 0)) = .ok (true, some [116]) := by decide +kernel

/-- A history: the last registration counts, until it is revoked. -/
example : Subscribed [.listen [116] 1, .listen [117] 2, .listen [116] 3] [116] 3 ∧ ¬ Subscribed [.listen [116] 1, .listen [116] 3] [116] 1 ∧
    ∀ c, ¬ Subscribed [.listen [116] 1, .ignore [116]] [116] c := by
  refine ⟨⟨[.listen [116] 1, .listen [117] 2], [], rfl, by simp⟩, ?_, fun c => ?_⟩
  · rw [show [Ev.listen [116] 1, .listen [116] 3] = [Ev.listen [116] 1] ++ [.listen [116] 3] from rfl, subscribed_snoc]
    simp [Ev.topic]
  · rw [show [Ev.listen [116] 1, .ignore [116]] = [Ev.listen [116] 1] ++ [.ignore [116]] from rfl, subscribed_snoc]
    simp [Ev.topic]

/-- A table `{1: "a"}` in a heap. -/
def sampleTable : Res (Heap × SM × Nat) := do
  let vm ← load host [1, 0, 97, 0, 30, 3, 36, 1, 0, 0, 0, 37, 0, 0, 0, 0, 31, 1] VM.new
  let vm ← VM.run host noFuns 20 vm
  match vm.stack with
  | a :: _ => pure (vm.heap, vm.strings, a)
  | [] => .ub

/-- Written and read back into an empty heap, its entry 1 has the characters of `a`. -/
example : (do
    let x ← sampleTable
    let bs ← hser x.1 5 x.2.2
    let g ← hdeser host.sc bs 20 0 Heap.new Strman.new
    match g.data with
    | none => .ub
    | some b => do
      let m ← deref g.h b
      match m.cell with
      | .tab t => do
        let e ← Table.get host.sc t (.int 1)
        match e with
        | some e => do
          let v ← deref g.h e.2
          pure (bs, objOf e.2 v.cell)
        | none => .ub
      | _ => .ub) = .ok ([4, 1, 1, 0, 0, 0, 1, 3, 0, 1, 97], .str 0 [97]) := by decide +kernel

end Buzz.Props
