import Verif.VM
import Verif.Props.Heap

/-
The memory invariant of the machine and how the heap operations keep it.
-/
namespace Buzz.VM

open Buzz.F32 Buzz.Msg Buzz.Heap Buzz.Props

/-- The address holds an object. -/
def Live (h : Heap) (a : Nat) : Prop := ∃ c, Holds h a c

/-- Representable as `int32_t`. -/
def I32 (v : Int) : Prop := -2147483648 ≤ v ∧ v ≤ 2147483647

/-- Content of an object with valid pointers: integers fit, strings are registered, tables have buckets and their keys are the
key objects' contents and can be hashed. -/
def CellOk (h : Heap) (sm : Strman.SM Bytes) : Cell → Prop
  | .atom (.int v) => I32 v
  | .atom (.str sid s) => Strman.get sm sid = some s
  | .atom (.tab _) => False
  | .atom (.clo _) => False
  | .atom _ => True
  | .tab t => t.buckets.length ≠ 0 ∧ ∀ e ∈ Dict.entries t, isKey e.1 = true ∧ Obj.tableHash e.1 ≠ .ub ∧ Holds h e.2.1 (.atom e.1) ∧ Live h e.2.2
  | .clo _ r l => I32 r ∧ ∀ b ∈ l, Live h b

/-- All objects held by stigmergies, listeners and queues exist. -/
structure OtherOk (h : Heap) (o : Other) : Prop where
  vstigs : ∀ e ∈ o.vstigs, (∀ a, e.2.onconflict = some a → Live h a) ∧ (∀ a, e.2.onconflictlost = some a → Live h a) ∧
    ∀ x ∈ Dict.entries e.2.data, Live h x.2.key ∧ Live h x.2.data
  listeners : ∀ e ∈ o.listeners, Live h e.2
  bcasts : ∀ e ∈ o.bcasts, Live h e.1 ∧ Live h e.2
  puts : ∀ m ∈ o.puts, Live h m.e.key ∧ Live h m.e.data
  queries : ∀ m ∈ o.queries, Live h m.e.key ∧ Live h m.e.data

/-- The memory invariant. -/
structure VInv (vm : VM) : Prop where
  heap : Inv vm.heap
  strings : Strman.Inv vm.strings
  cells : ∀ a c, Holds vm.heap a c → CellOk vm.heap vm.strings c
  stack : ∀ a ∈ vm.stack, Live vm.heap a
  rest : ∀ s ∈ vm.rest, ∀ a ∈ s, Live vm.heap a
  frames : ∀ f ∈ vm.frames, ∀ a ∈ f.syms, Live vm.heap a
  gsyms : ∀ e ∈ vm.gsyms, Live vm.heap e.2
  other : OtherOk vm.heap vm.other
  depth : vm.state ≠ .error → vm.frames.length = vm.rest.length
  size : vm.code.length ≤ 2147483647
  pcr : I32 vm.pc

theorem OtherOk.mono {h h' : Heap} {o : Other} (i : OtherOk h o) (hl : ∀ a, Live h a → Live h' a) : OtherOk h' o where
  vstigs e he := ⟨fun a ha => hl _ ((i.vstigs e he).1 a ha), fun a ha => hl _ ((i.vstigs e he).2.1 a ha),
    fun x hx => ⟨hl _ ((i.vstigs e he).2.2 x hx).1, hl _ ((i.vstigs e he).2.2 x hx).2⟩⟩
  listeners e he := hl _ (i.listeners e he)
  bcasts e he := ⟨hl _ (i.bcasts e he).1, hl _ (i.bcasts e he).2⟩
  puts e he := ⟨hl _ (i.puts e he).1, hl _ (i.puts e he).2⟩
  queries e he := ⟨hl _ (i.queries e he).1, hl _ (i.queries e he).2⟩

theorem CellOk.mono {h h' : Heap} {sm sm' : Strman.SM Bytes} {c : Cell} (k : CellOk h sm c)
    (ha : ∀ a o, Holds h a (.atom o) → Holds h' a (.atom o)) (hl : ∀ a, Live h a → Live h' a)
    (hs : ∀ i s, Strman.get sm i = some s → Strman.get sm' i = some s) : CellOk h' sm' c := by
  cases c with
  | atom o => cases o <;> first | exact k | exact hs _ _ k
  | clo n r l => exact ⟨k.1, fun b hb => hl _ (k.2 b hb)⟩
  | tab t => exact ⟨k.1, fun e he => ⟨(k.2 e he).1, (k.2 e he).2.1, ha _ _ (k.2 e he).2.2.1, hl _ (k.2 e he).2.2.2⟩⟩

theorem CellOk.children {h : Heap} {sm : Strman.SM Bytes} {c : Cell} (k : CellOk h sm c) :
    ∀ b ∈ children c, (FMap.get h.objs b).isSome := by
  intro b hb
  cases c with
  | atom o => simp [Heap.children] at hb
  | clo n r l => exact holds_isSome.mpr (k.2 b hb)
  | tab t =>
    simp only [Heap.children, List.mem_flatMap] at hb
    obtain ⟨e, he, hb⟩ := hb
    simp only [List.mem_cons, List.not_mem_nil, or_false] at hb
    rcases hb with hb | hb
    · rw [hb]; exact holds_isSome.mpr ⟨_, (k.2 e he).2.2.1⟩
    · rw [hb]; exact holds_isSome.mpr (k.2 e he).2.2.2

/-- Replacing the heap. -/
theorem VInv.setHeap {vm : VM} (i : VInv vm) {h' : Heap} (ih : Inv h')
    (ha : ∀ a o, Holds vm.heap a (.atom o) → Holds h' a (.atom o)) (hl : ∀ a, Live vm.heap a → Live h' a)
    (hc : ∀ a c, Holds h' a c → Holds vm.heap a c ∨ CellOk h' vm.strings c) : VInv { vm with heap := h' } where
  heap := ih
  strings := i.strings
  cells a c h := by
    rcases hc a c h with h | h
    · exact (i.cells a c h).mono ha hl (fun _ _ h => h)
    · exact h
  stack a h := hl _ (i.stack a h)
  rest s hs a h := hl _ (i.rest s hs a h)
  frames f hf a h := hl _ (i.frames f hf a h)
  gsyms e he := hl _ (i.gsyms e he)
  other := i.other.mono hl
  depth := i.depth
  size := i.size
  pcr := i.pcr

theorem newobj_snd (h : Heap) (c : Cell) : (newobj h c).2 = h.brk := rfl

theorem holds_new {h : Heap} (i : Inv h) (c : Cell) : Holds (newobj h c).1 (newobj h c).2 c := (holds_alloc i).mpr (.inl ⟨rfl, rfl⟩)

theorem holds_old {h : Heap} (i : Inv h) {c c' : Cell} {a : Nat} (k : Holds h a c') : Holds (newobj h c).1 a c' :=
  (holds_alloc i).mpr (.inr k)

theorem live_old {h : Heap} (i : Inv h) {c : Cell} {a : Nat} (k : Live h a) : Live (newobj h c).1 a := by
  obtain ⟨c', k⟩ := k
  exact ⟨c', holds_old i k⟩

/-- Allocating an object. -/
theorem VInv.newobj {vm : VM} (i : VInv vm) {c : Cell} (k : CellOk vm.heap vm.strings c) : VInv { vm with heap := (newobj vm.heap c).1 } := by
  refine i.setHeap (inv_alloc i.heap k.children) (fun a o h => holds_old i.heap h) (fun a h => live_old i.heap h) ?_
  intro a c' h
  rcases (holds_alloc i.heap).mp h with ⟨_, rfl⟩ | h
  · exact .inr (k.mono (fun a o h => holds_old i.heap h) (fun a h => live_old i.heap h) (fun _ _ h => h))
  · exact .inl h

/-- Pushing a new object. -/
theorem VInv.push {vm : VM} (i : VInv vm) {c : Cell} (k : CellOk vm.heap vm.strings c) : VInv (push vm c) := by
  have j := i.newobj k
  refine { j with stack := ?_ }
  intro a h
  simp only [VM.push, List.mem_cons] at h
  rcases h with h | h
  · rw [h]; exact ⟨c, holds_new i.heap c⟩
  · exact j.stack a h

theorem VInv.pushAddr {vm : VM} (i : VInv vm) {a : Nat} (h : Live vm.heap a) : VInv (pushAddr vm a) := by
  refine { i with stack := ?_ }
  intro b hb
  simp only [VM.pushAddr, List.mem_cons] at hb
  rcases hb with hb | hb
  · rw [hb]; exact h
  · exact i.stack b hb

theorem VInv.popN {vm : VM} (i : VInv vm) (n : Nat) : VInv (popN vm n) :=
  { i with stack := fun a h => i.stack a (List.mem_of_mem_drop h) }

theorem VInv.setErr {vm : VM} (i : VInv vm) (e : Err) : VInv (setErr vm e) := { i with depth := fun h => absurd rfl h }

theorem VInv.setPc {vm : VM} (i : VInv vm) {p : Int} (h : I32 p) : VInv { vm with pc := p } := { i with pcr := h }

theorem VInv.pop {vm : VM} (i : VInv vm) : VInv (pop vm) := by
  unfold VM.pop
  split
  · exact i.setErr _
  · exact i.popN 1

theorem VInv.dup {vm : VM} (i : VInv vm) : VInv (dup vm) := by
  unfold VM.dup
  split
  · exact i.setErr _
  · rename_i a s h
    exact i.pushAddr (i.stack a (by rw [h]; exact List.mem_cons_self ..))

/-- Overwriting a table or a closure. -/
theorem VInv.write {vm : VM} (i : VInv vm) {a : Nat} {c0 c : Cell} (h0 : Holds vm.heap a c0) (hn : ∀ o, c0 ≠ .atom o)
    (k : CellOk vm.heap vm.strings c) : VInv { vm with heap := write vm.heap a c } := by
  have ha : ∀ x o, Holds vm.heap x (.atom o) → Holds (Heap.write vm.heap a c) x (.atom o) := by
    intro x o h
    refine (holds_write h0).mpr (.inr ⟨fun hx => ?_, h⟩)
    subst hx
    exact hn o (holds_inj h0 h)
  have hl : ∀ x, Live vm.heap x → Live (Heap.write vm.heap a c) x := by
    rintro x ⟨c', h⟩
    by_cases hx : x = a
    · exact ⟨c, (holds_write h0).mpr (.inl ⟨hx, rfl⟩)⟩
    · exact ⟨c', (holds_write h0).mpr (.inr ⟨hx, h⟩)⟩
  refine i.setHeap (inv_write i.heap k.children) ha hl ?_
  intro x c' h
  rcases (holds_write h0).mp h with ⟨_, rfl⟩ | ⟨_, h⟩
  · exact .inr (k.mono ha hl (fun _ _ h => h))
  · exact .inl h

theorem VInv.pushC {vm : VM} (i : VInv vm) {r : Int} (hr : I32 r) (n : Bool) : VInv (pushC vm r n) := by
  have i1 : VInv { vm with heap := (Heap.newobj vm.heap (.clo n r [])).1 } := i.newobj ⟨hr, by simp⟩
  have i2 := i1.newobj (c := .atom .nil) trivial
  have h1 : Holds (Heap.newobj (Heap.newobj vm.heap (.clo n r [])).1 (.atom .nil)).1 (Heap.newobj vm.heap (.clo n r [])).2 (.clo n r []) :=
    holds_old i1.heap (holds_new i.heap _)
  have h2 : Holds (Heap.newobj (Heap.newobj vm.heap (.clo n r [])).1 (.atom .nil)).1
      (Heap.newobj (Heap.newobj vm.heap (.clo n r [])).1 (.atom .nil)).2 (.atom .nil) := holds_new i1.heap _
  have i3 := i2.write (c := .clo n r [(Heap.newobj (Heap.newobj vm.heap (.clo n r [])).1 (.atom .nil)).2]) h1 (fun o h => Cell.noConfusion h)
    ⟨hr, fun b hb => by rw [List.mem_singleton] at hb; subst hb; exact ⟨_, h2⟩⟩
  refine { i3 with stack := ?_ }
  intro a ha
  simp only [VM.pushC, List.mem_cons] at ha
  rcases ha with ha | ha
  · rw [ha]; exact ⟨_, (holds_write h1).mpr (.inl ⟨rfl, rfl⟩)⟩
  · exact i3.stack a ha

theorem VInv.pushS {vm : VM} (i : VInv vm) (sid : Nat) : VInv (pushS vm sid) := by
  unfold VM.pushS
  split
  · rename_i s h
    exact i.push h
  · exact i.setErr _

theorem VInv.pushL {vm : VM} (i : VInv vm) {r : Int} (hr : I32 r) : VInv (pushL vm r) := by
  unfold VM.pushL
  split
  · rename_i f fs h
    exact i.push ⟨hr, fun b hb => i.frames f (by rw [h]; exact List.mem_cons_self ..) b hb⟩
  · exact i.pushC hr _

theorem intOfU32_range (n : Nat) (h : n < 4294967296) : I32 (intOfU32 n) := by
  unfold intOfU32 I32
  split <;> omega

/-- All places that hold objects. -/
theorem VInv.roots {vm : VM} (i : VInv vm) (a : Nat) (h : (roots vm).Mem a) : ∃ c, Holds vm.heap a c := by
  unfold Roots.Mem VM.roots at h
  simp only at h
  rcases h with ⟨e, he, rfl⟩ | ⟨l, hl, ha⟩ | ⟨l, hl, ha⟩ | ⟨e, he, h⟩ | ⟨e, he, rfl⟩ | ⟨e, he, h⟩ | ⟨e, he, h⟩ | ⟨e, he, h⟩
  · exact i.gsyms e he
  · simp only [List.mem_reverse, List.mem_map, List.mem_cons] at hl
    obtain ⟨s, hs, rfl⟩ := hl
    rw [List.mem_reverse] at ha
    rcases hs with rfl | hs
    · exact i.stack a ha
    · exact i.rest s hs a ha
  · simp only [List.mem_reverse, List.mem_map] at hl
    obtain ⟨f, hf, rfl⟩ := hl
    exact i.frames f hf a ha
  · obtain ⟨g, hg, rfl⟩ := List.mem_map.mp he
    rcases h with h | h | ⟨x, hx, h⟩
    · exact (i.other.vstigs g hg).1 a h
    · exact (i.other.vstigs g hg).2.1 a h
    · obtain ⟨y, hy, rfl⟩ := List.mem_map.mp hx
      rcases h with rfl | rfl
      · exact ((i.other.vstigs g hg).2.2 y hy).1
      · exact ((i.other.vstigs g hg).2.2 y hy).2
  · exact i.other.listeners e he
  · rcases h with rfl | rfl
    · exact (i.other.bcasts e he).1
    · exact (i.other.bcasts e he).2
  · obtain ⟨g, hg, rfl⟩ := List.mem_map.mp he
    rcases h with rfl | rfl
    · exact (i.other.puts g hg).1
    · exact (i.other.puts g hg).2
  · obtain ⟨g, hg, rfl⟩ := List.mem_map.mp he
    rcases h with rfl | rfl
    · exact (i.other.queries g hg).1
    · exact (i.other.queries g hg).2

/-- What a collection does to a machine: nothing a root can reach changes. -/
theorem collect_spec {vm : VM} (i : VInv vm) : ∃ h' sm', collect vm = .ok { vm with heap := h', strings := sm' } ∧
    VInv { vm with heap := h', strings := sm' } ∧
    (∀ a c, Holds h' a c → Holds vm.heap a c) ∧
    (∀ a c, Holds vm.heap a c → Reach vm.heap (roots vm).Mem a → Holds h' a c) ∧
    (∀ sid s, Strman.get sm' sid = some s → Strman.get vm.strings sid = some s) := by
  by_cases hfull : vm.heap.maxObjs ≤ vm.heap.objs.length
  · obtain ⟨h', sm', h1, h2, _, h4, _⟩ := C08_collection_exact i.heap i.strings i.roots hfull
    obtain ⟨h'', sm'', g1, g2, g3, _⟩ := gc_spec i.heap i.strings (fun a ha => holds_isSome.mpr (i.roots a ha)) hfull
    rw [h1] at g1; cases g1
    have hlive : ∀ a, Reach vm.heap (roots vm).Mem a → Live vm.heap a → Live h' a := by
      rintro a r ⟨c, hc⟩
      exact ⟨c, (h2 a c).mpr ⟨hc, r⟩⟩
    have hroot : ∀ a, (roots vm).Mem a → Live h' a := fun a r => hlive a (.root r) (i.roots a r)
    refine ⟨h', sm', by simp [collect, h1], ?_, fun a c h => ((h2 a c).mp h).1, fun a c h r => (h2 a c).mpr ⟨h, r⟩, ?_⟩
    · refine ⟨g2, g3, ?_, ?_, ?_, ?_, ?_, ?_, i.depth, i.size, i.pcr⟩
      · intro a c hc
        obtain ⟨h5, h6⟩ := (h2 a c).mp hc
        have hk := i.cells a c h5
        have hpt : ∀ b ∈ children c, Reach vm.heap (roots vm).Mem b := by
          intro b hb
          obtain ⟨m, g4, g5⟩ := h5
          exact .step h6 (points_iff.mpr ⟨m, g4, g5 ▸ hb⟩)
        cases c with
        | atom o =>
          cases o with
          | str sid s =>
            have hk' : Strman.get vm.strings sid = some s := hk
            show Strman.get sm' sid = some s
            unfold Strman.get at hk' ⊢
            obtain ⟨p, hp, hps⟩ := Option.map_eq_some_iff.mp hk'
            obtain ⟨x, y⟩ := p
            simp only at hps
            subst hps
            rw [(h4 sid x y).mpr ⟨hp, .inr (.inr ⟨a, x, hc⟩)⟩]
            rfl
          | _ => exact hk
        | clo n r l => exact ⟨hk.1, fun b hb => hlive b (hpt b hb) (hk.2 b hb)⟩
        | tab t =>
          refine ⟨hk.1, fun e he => ?_⟩
          obtain ⟨k1, k2, k3, k4⟩ := hk.2 e he
          have hb1 : Reach vm.heap (roots vm).Mem e.2.1 := hpt _ (by simp only [children, List.mem_flatMap]; exact ⟨e, he, by simp⟩)
          have hb2 : Reach vm.heap (roots vm).Mem e.2.2 := hpt _ (by simp only [children, List.mem_flatMap]; exact ⟨e, he, by simp⟩)
          exact ⟨k1, k2, (h2 _ _).mpr ⟨k3, hb1⟩, hlive _ hb2 k4⟩
      · intro a ha
        exact hroot a (.inr (.inl ⟨vm.stack.reverse, by simp [VM.roots], by simpa using ha⟩))
      · intro s hs a ha
        exact hroot a (.inr (.inl ⟨s.reverse, by simp only [VM.roots, List.mem_reverse, List.mem_map, List.mem_cons]; exact ⟨s, .inr hs, rfl⟩, by simpa using ha⟩))
      · intro f hf a ha
        exact hroot a (.inr (.inr (.inl ⟨f.syms, by simp only [VM.roots, List.mem_reverse, List.mem_map]; exact ⟨f, hf, rfl⟩, ha⟩)))
      · intro e he
        exact hroot e.2 (.inl ⟨e, he, rfl⟩)
      · refine ⟨?_, ?_, ?_, ?_, ?_⟩
        · intro e he
          refine ⟨fun a ha => hroot a ?_, fun a ha => hroot a ?_, fun x hx => ⟨hroot _ ?_, hroot _ ?_⟩⟩
          · exact .inr (.inr (.inr (.inl ⟨_, List.mem_map_of_mem he, .inl ha⟩)))
          · exact .inr (.inr (.inr (.inl ⟨_, List.mem_map_of_mem he, .inr (.inl ha)⟩)))
          · exact .inr (.inr (.inr (.inl ⟨_, List.mem_map_of_mem he, .inr (.inr ⟨_, List.mem_map_of_mem hx, .inl rfl⟩)⟩)))
          · exact .inr (.inr (.inr (.inl ⟨_, List.mem_map_of_mem he, .inr (.inr ⟨_, List.mem_map_of_mem hx, .inr rfl⟩)⟩)))
        · intro e he
          exact hroot _ (.inr (.inr (.inr (.inr (.inl ⟨e, he, rfl⟩)))))
        · intro e he
          exact ⟨hroot _ (.inr (.inr (.inr (.inr (.inr (.inl ⟨e, he, .inl rfl⟩)))))), hroot _ (.inr (.inr (.inr (.inr (.inr (.inl ⟨e, he, .inr rfl⟩))))))⟩
        · intro e he
          exact ⟨hroot _ (.inr (.inr (.inr (.inr (.inr (.inr (.inl ⟨_, List.mem_map_of_mem he, .inl rfl⟩))))))),
            hroot _ (.inr (.inr (.inr (.inr (.inr (.inr (.inl ⟨_, List.mem_map_of_mem he, .inr rfl⟩)))))))⟩
        · intro e he
          exact ⟨hroot _ (.inr (.inr (.inr (.inr (.inr (.inr (.inr ⟨_, List.mem_map_of_mem he, .inl rfl⟩))))))),
            hroot _ (.inr (.inr (.inr (.inr (.inr (.inr (.inr ⟨_, List.mem_map_of_mem he, .inr rfl⟩)))))))⟩
    · intro sid s hs
      unfold Strman.get at hs ⊢
      obtain ⟨p, hp, hps⟩ := Option.map_eq_some_iff.mp hs
      obtain ⟨x, y⟩ := p
      simp only at hps
      subst hps
      rw [((h4 sid x y).mp hp).1]
      rfl
  · have hg : gc vm.heap vm.strings (roots vm) = .ok (vm.heap, vm.strings) := by
      unfold gc
      rw [if_pos (by omega)]
    exact ⟨vm.heap, vm.strings, by simp [collect, hg], i, fun _ _ h => h, fun _ _ h _ => h, fun _ _ h => h⟩

end Buzz.VM
