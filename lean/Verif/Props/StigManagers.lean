import Verif.StigMgr
import Verif.Props.StigRuns

/-
The conflict managers of a virtual stigmergy on the machine (C80).
-/
namespace Buzz.Props

open Buzz.VM Buzz.F32 Buzz.Msg Buzz.Heap

variable {E : Env} {F : CFuns} {m : Nat} {ca : Nat} {ref : Int} {cl : List Nat} {vm : VM} {l v : VElem} {dl dv : Cell}

/-! ### Specification -/

/-- The machine `u` is `vm` with the function `ca` of the script and its arguments on the stack: the key, and tables made of entries. -/
structure MgrCalled (E : Env) (vm : VM) (ca key : Nat) (es : List (VElem × Cell)) (u : VM) (ts : List Nat) : Prop where
  prep : Prepared vm u
  stack : u.stack = ts.reverse ++ key :: ca :: vm.stack
  fresh : ∀ t ∈ ts, ¬ Live vm.heap t
  tables : List.Forall₂ (fun e t => EntryTable E u t e.1 e.2) es ts

/-- The call has come back with the result `r` on top of the stack there was. -/
structure MgrBack (vm y : VM) (r : Nat) : Prop where
  ready : y.state = .ready
  stack : y.stack = r :: vm.stack
  rest : y.rest = vm.rest
  frames : y.frames = vm.frames
  pc : y.pc = vm.pc
  code : y.code = vm.code
  inv : VInv y

theorem mgr_back (hF : FOk F) (hH : FHome F) (hA : FApart F) (hK : FFirm F) (hr : vm.state = .ready) {u y : VM} {key n : Nat} {es : List (VElem × Cell)} {ts : List Nat} (hn : n = ts.length + 1)
    (hb : n < 2147483647) (c : MgrCalled E vm ca key es u ts) (hc : Holds vm.heap ca (.clo true ref cl)) (h : closureCall E F m n u = .ok y) (hy : y.state = .ready) : ∃ r, MgrBack vm y r := by
  have hat : At u n (.clo true ref cl) := ⟨ca, by
    rw [c.stack, hn, List.getElem?_append_right (by simp)]
    simp, c.prep.heap _ _ hc⟩
  obtain ⟨res, fr, k⟩ := callback (P := none') hF hH hA hK c.prep.inv (c.prep.state.trans hr) hb hat h hy
    ⟨fun _ _ _ _ h => h, fun _ _ h => h, fun _ _ h => h, fun _ _ _ _ _ _ h => h, fun _ h => h.elim⟩ (fun _ _ h => h) (fun _ h => h.elim)
  obtain ⟨r, hs⟩ := res.stack
  have hd : u.stack.drop (n + 1) = vm.stack := by
    rw [c.stack, hn, List.drop_append, List.length_reverse, show ts.length + 1 + 1 - ts.length = 2 by omega, List.drop_eq_nil_of_le (by rw [List.length_reverse]; omega)]
    rfl
  exact ⟨r, hy, by rw [hs, hd], res.rest.trans c.prep.rest, res.frames.trans c.prep.frames, res.pc.trans (congrArg VM.pc c.prep.eq :), res.code.trans (congrArg VM.code c.prep.eq :), res.inv⟩

/-- **C80** A conflict manager that is a function of the script is called with the key of the message, a table with robot, value and timestamp of the local entry, and one of the received
entry; everything else is as before the call.  Let it come back with `r`.  If `r` is no table, or its field `robot` is no integer, no entry comes out of it, and a value is left on the stack.  If `r` is
a table with an integer `n` as its field `robot`, the new entry has the value of its field `data` (nil if there is none), the robot `n` modulo 65536 and the timestamp of the local entry, and the stack
is as before. -/
theorem C80_manager (law : Obj.StrcmpLaw E.sc) (hF : FOk F) (hH : FHome F) (hA : FApart F) (hK : FFirm F) (i : VInv vm) (hr : vm.state = .ready) (hc : Holds vm.heap ca (.clo true ref cl))
    (hk : Live vm.heap v.key) (hl : Holds vm.heap l.data dl) (hv : Holds vm.heap v.data dv) (hlt : l.ts < 65536) (hlr : l.robot < 65536) (hvt : v.ts < 65536) (hvr : v.robot < 65536)
    (hz : vm.strings.id2str.length + 6 ≤ 65534) :
    ∃ u lt rt, MgrCalled E vm ca v.key [(l, dl), (v, dv)] u [lt, rt] ∧ lt ≠ rt ∧ (∀ x, stigMgr E F m ca l v vm = .ok x → ∃ y, closureCall E F m 3 u = .ok y) ∧
      ∀ y, closureCall E F m 3 u = .ok y → y.state = .ready → y.strings.id2str.length + 2 ≤ 65534 → ∃ r, MgrBack vm y r ∧
        (∀ c, Holds y.heap r c → (∀ t, c ≠ .tab t) → stigMgr E F m ca l v vm = .ok (y, none)) ∧
        (∀ a c, FieldAt E y r "robot" a → Holds y.heap a c → (∀ n, c ≠ .atom (.int n)) → ∃ w, stigMgr E F m ca l v vm = .ok (w, none) ∧ Prepared y w ∧ w.stack = a :: vm.stack) ∧
        (NoField E y r "robot" → ∃ w a, stigMgr E F m ca l v vm = .ok (w, none) ∧ Prepared y w ∧ w.stack = a :: vm.stack) ∧
        (∀ a n d, FieldAt E y r "robot" a → Holds y.heap a (.atom (.int n)) → FieldAt E y r "data" d →
          ∃ w, stigMgr E F m ca l v vm = .ok (w, some ⟨v.key, d, l.ts, (n % 65536).toNat⟩) ∧ Prepared y w ∧ w.stack = vm.stack) ∧
        (∀ a n, FieldAt E y r "robot" a → Holds y.heap a (.atom (.int n)) → NoField E y r "data" →
          ∃ w d, stigMgr E F m ca l v vm = .ok (w, some ⟨v.key, d, l.ts, (n % 65536).toNat⟩) ∧ Prepared y w ∧ w.stack = vm.stack ∧ Holds w.heap d (.atom .nil)) := by
  have p0 : Prepared vm (pushAddr (pushAddr vm ca) v.key) := ((Prepared.refl i).push ⟨_, hc⟩).push hk
  obtain ⟨u1, lt, e1, p1, s1, f1, t1, z1⟩ := entry_table (E := E) law p0.inv (e := l) (p0.heap _ _ hl) hlt hlr (show vm.strings.id2str.length + 3 ≤ 65534 by omega)
  have z1 : u1.strings.id2str.length ≤ vm.strings.id2str.length + 3 := z1
  obtain ⟨u2, rt, e2, p2, s2, f2, t2, z2⟩ := entry_table (E := E) law p1.inv (e := v) (p1.heap _ _ (p0.heap _ _ hv)) hvt hvr (by omega)
  have called : MgrCalled E vm ca v.key [(l, dl), (v, dv)] u2 [lt, rt] := by
    refine ⟨(p0.trans p1).trans p2, by rw [s2, s1]; rfl, ?_, .cons (t1.grow p2) (.cons t2 .nil)⟩
    intro t ht
    simp only [List.mem_cons, List.not_mem_nil, or_false] at ht
    rcases ht with rfl | rfl
    · exact fun ⟨c, h⟩ => f1 ⟨c, p0.heap _ _ h⟩
    · exact fun ⟨c, h⟩ => f2 ⟨c, p1.heap _ _ (p0.heap _ _ h)⟩
  have eq : stigMgr E F m ca l v vm = closureCall E F m 3 u2 >>= stigVerdict E l v := by
    unfold stigMgr
    rw [e1, Res.ok_bind, e2, Res.ok_bind]
  refine ⟨u2, lt, rt, called, ?_, fun x hx => ?_, fun y hy hyr hyz => ?_⟩
  · rintro rfl
    obtain ⟨_, ⟨t, _, _, h, _⟩, _⟩ := t1.robot
    exact f2 ⟨_, h⟩
  · rw [eq] at hx
    obtain ⟨y, h, _⟩ := Res.bind_eq_ok.mp hx
    exact ⟨y, h⟩
  · obtain ⟨r, b⟩ := mgr_back hF hH hA hK hr (n := 3) rfl (by decide) called hc hy hyr
    have st := b.stack
    have iy := b.inv
    have yeq : y = { y with stack := r :: vm.stack } := by rw [← st]
    have top : ∀ c, Holds y.heap r c → peekCell y 1 = .ok c ∧ peekAddr y 1 = .ok r := fun c h => by
      have := peek_top (vm := y) h vm.stack
      rw [← yeq] at this
      exact this.2
    have topw : ∀ (w : VM) (a : Nat) (c : Cell) (s : List Nat), w.stack = a :: s → Holds w.heap a c → peek w 1 = .ok (objOf a c) ∧ peekAddr w 1 = .ok a := fun w a c s hs h => by
      have := peek_top (vm := w) h s
      have e : ({ w with stack := a :: s } : VM) = w := by rw [← hs]
      rw [e] at this
      exact ⟨this.1, this.2.2⟩
    have isTab : ∀ {x a}, FieldAt E y r x a → ∃ t, Holds y.heap r (.tab t) := fun ⟨t, _, _, h, _⟩ => ⟨t, h⟩
    have popEq : ∀ (w : VM) (a : Nat) (s : List Nat), w.stack = a :: s → pop w = { w with stack := s } := fun w a s hs => by
      unfold pop popN
      rw [hs]
      rfl
    have poppedOk : ∀ (w : VM) (a : Nat), Prepared y w → w.stack = a :: vm.stack → Prepared y { w with stack := vm.stack } := fun w a p hs => p.restack fun b hb => p.inv.stack b (by rw [hs]; exact List.mem_cons_of_mem _ hb)
    -- the first field
    have first : ∀ a c, FieldAt E y r "robot" a → Holds y.heap a c → ∃ w, Prepared y w ∧ w.stack = a :: vm.stack ∧ w.strings.id2str.length ≤ y.strings.id2str.length + 1 ∧ Holds w.heap a c ∧
        stigVerdict E l v y = (match objOf a c with
          | .int n => do
            let vm ← pushName "data" (pushAddr { w with stack := vm.stack } r)
            let vm ← tget E vm
            let d ← peekAddr vm 1
            pure (pop vm, some ⟨v.key, d, l.ts, (n % 65536).toNat⟩)
          | _ => pure (w, none)) := by
      intro a c fa ha
      obtain ⟨t, ht⟩ := isTab fa
      obtain ⟨w, g1, g2, g3, g4⟩ := read_field (E := E) iy st (x := "robot") (by omega) fa
      refine ⟨w, g2, g3, g4, g2.heap _ _ ha, ?_⟩
      obtain ⟨q, hq1, hq2⟩ := Res.bind_eq_ok.mp g1
      unfold stigVerdict
      rw [(top _ ht).1, Res.ok_bind]
      simp only
      rw [(top _ ht).2, Res.ok_bind, hq1, Res.ok_bind, hq2, Res.ok_bind, (topw w a c _ g3 (g2.heap _ _ ha)).1, Res.ok_bind]
      rw [popEq w a _ g3]
      rfl
    refine ⟨r, b, fun c hcc hn => ?_, fun a c fa ha hn => ?_, fun fa => ?_, fun a n d fa ha fd => ?_, fun a n fa ha fd => ?_⟩
    · rw [eq, hy, Res.ok_bind]
      unfold stigVerdict
      rw [(top _ hcc).1, Res.ok_bind]
      cases c with
      | tab t => exact absurd rfl (hn t)
      | _ => rfl
    · obtain ⟨w, p, hs, _, _, e⟩ := first a c fa ha
      refine ⟨w, ?_, p, hs⟩
      rw [eq, hy, Res.ok_bind, e]
      cases c with
      | atom o =>
        cases o with
        | int n => exact absurd rfl (hn n)
        | _ => rfl
      | _ => rfl
    · obtain ⟨t, sid, ht, _⟩ := id fa
      obtain ⟨w, a, g1, g2, g3, g4, g5⟩ := read_none (E := E) iy st (x := "robot") (by omega) fa
      refine ⟨w, a, ?_, g2, g3⟩
      obtain ⟨q, hq1, hq2⟩ := Res.bind_eq_ok.mp g1
      rw [eq, hy, Res.ok_bind]
      unfold stigVerdict
      rw [(top _ ht).1, Res.ok_bind]
      simp only
      rw [(top _ ht).2, Res.ok_bind, hq1, Res.ok_bind, hq2, Res.ok_bind, (topw w a _ _ g3 g4).1, Res.ok_bind]
      rfl
    · obtain ⟨w, p, hs, hzw, _, e⟩ := first a _ fa ha
      obtain ⟨t, ht⟩ := isTab fa
      have p' := (poppedOk w a p hs).push (a := r) ⟨_, p.heap _ _ ht⟩
      obtain ⟨x, g1, g2, g3, g4⟩ := read_field (E := E) p'.inv (ra := r) (st := vm.stack) rfl (x := "data") (show w.strings.id2str.length ≤ 65533 by omega) (fd.grow p'.heap p'.strs)
      obtain ⟨q, hq1, hq2⟩ := Res.bind_eq_ok.mp g1
      refine ⟨{ x with stack := vm.stack }, ?_, poppedOk x d (p'.trans g2) g3, rfl⟩
      rw [eq, hy, Res.ok_bind, e]
      simp only [objOf]
      rw [hq1, Res.ok_bind, hq2, Res.ok_bind, peek_at g3, Res.ok_bind, popEq x d _ g3]
      rfl
    · obtain ⟨w, p, hs, hzw, _, e⟩ := first a _ fa ha
      obtain ⟨t, ht⟩ := isTab fa
      have p' := (poppedOk w a p hs).push (a := r) ⟨_, p.heap _ _ ht⟩
      obtain ⟨x, d, g1, g2, g3, g4, g5⟩ := read_none (E := E) p'.inv (ra := r) (st := vm.stack) rfl (x := "data") (show w.strings.id2str.length ≤ 65533 by omega) (fd.grow p'.heap p'.strs)
      obtain ⟨q, hq1, hq2⟩ := Res.bind_eq_ok.mp g1
      refine ⟨{ x with stack := vm.stack }, d, ?_, poppedOk x d (p'.trans g2) g3, rfl, g4⟩
      rw [eq, hy, Res.ok_bind, e]
      simp only [objOf]
      rw [hq1, Res.ok_bind, hq2, Res.ok_bind, peek_at g3, Res.ok_bind, popEq x d _ g3]
      rfl

/-- **C80** The function for lost conflicts is called with the key and a table with robot, value and timestamp of the entry that was lost.  Its result stays on the stack. -/
theorem C80_lost (law : Obj.StrcmpLaw E.sc) (hF : FOk F) (hH : FHome F) (hA : FApart F) (hK : FFirm F) (i : VInv vm) (hr : vm.state = .ready) (hc : Holds vm.heap ca (.clo true ref cl))
    (hk : Live vm.heap l.key) (hl : Holds vm.heap l.data dl) (hlt : l.ts < 65536) (hlr : l.robot < 65536) (hz : vm.strings.id2str.length + 3 ≤ 65534) :
    ∃ u t, MgrCalled E vm ca l.key [(l, dl)] u [t] ∧ stigLost E F m ca l vm = closureCall E F m 2 u ∧ ∀ y, stigLost E F m ca l vm = .ok y → y.state = .ready → ∃ r, MgrBack vm y r := by
  have p0 : Prepared vm (pushAddr (pushAddr vm ca) l.key) := ((Prepared.refl i).push ⟨_, hc⟩).push hk
  obtain ⟨u1, lt, e1, p1, s1, f1, t1, z1⟩ := entry_table (E := E) law p0.inv (e := l) (p0.heap _ _ hl) hlt hlr (show vm.strings.id2str.length + 3 ≤ 65534 by omega)
  have called : MgrCalled E vm ca l.key [(l, dl)] u1 [lt] := by
    refine ⟨p0.trans p1, by rw [s1]; rfl, ?_, .cons t1 .nil⟩
    intro t ht
    cases List.mem_singleton.mp ht
    exact fun ⟨c, h⟩ => f1 ⟨c, p0.heap _ _ h⟩
  have eq : stigLost E F m ca l vm = closureCall E F m 2 u1 := by
    unfold stigLost
    rw [e1, Res.ok_bind]
  exact ⟨u1, lt, called, eq, fun y hy hyr => mgr_back hF hH hA hK hr (n := 2) rfl (by decide) called hc (eq ▸ hy) hyr⟩

/-! ### What the answer does to the stigmergy -/

variable {mgr : Nat → VElem → VElem → VM → Res (VM × Option VElem)} {hook : Nat → VElem → VM → Res VM} {me id h : Nat} {st st' : Stig} {k : Obj} {x : VM} {e : VElem} {S : Obj → Prop}

/-- **C80** Nothing is stored and no message is queued when no entry comes out of the conflict manager. -/
theorem C80_nothing (hs : st.onconflict = some ca) (hm : mgr ca l v vm = .ok (x, none)) : stigConflict E me mgr hook id st k l v vm = .ok x := by
  unfold stigConflict stigResolve
  rw [hs]
  simp only
  rw [hm, Res.ok_bind]
  rfl

/-- The stigmergy `id` of `w` is the one of `x` with the entry `e` under the key `k`: other keys, other stigmergies and the managers are as they were. -/
structure StoredIn (E : Env) (S : Obj → Prop) (id : Nat) (k : Obj) (e : VElem) (x w : VM) (st : Stig) : Prop where
  ex : ∃ d, FMap.get w.other.vstigs id = some { st with data := d } ∧ Table.get E.sc d k = .ok (some e) ∧ (∀ k', S k' → k' ≠ k → Table.get E.sc d k' = Table.get E.sc st.data k')
  others : ∀ j, j ≠ id → FMap.get w.other.vstigs j = FMap.get x.other.vstigs j
  eq : w = { x with heap := w.heap, other := { x.other with vstigs := w.other.vstigs } }

theorem stored_in (H : Table.Homog E.sc S) (wf : Dict.WF Table.hashN Table.eqd st.data) (hk : Table.Keys S st.data) (h : S k) : ∃ w, stigSet E id st k e x = .ok w ∧ w.heap = x.heap ∧ StoredIn E S id k e x w st := by
  obtain ⟨d, h1, h2, h3, h4⟩ := Table.put_spec H wf hk h (some e)
  have h1 : Table.set E.sc st.data k e = .ok d := h1
  have hp : (Dict.entries d).Pairwise (fun a b => a.1 ≠ b.1) := Hof.entries_distinct h2
  refine ⟨setStig id { st with data := d } x, ?_, rfl, ⟨d, FMap.get_set_self _ _ _, ?_, fun k' hk' hne => ?_⟩, fun j hj => ?_, rfl⟩
  · unfold stigSet
    rw [h1, Res.ok_bind]
    rfl
  · rw [Table.get_spec H h2 h3 h, Hof.find_perm h4 hp, List.find?_append, List.find?_filter]
    have : (Dict.entries st.data).find? (fun a => (!Table.eqd k a.1) && Table.eqd k a.1) = none := by simp
    rw [show (fun a : Obj × VElem => decide ((!Table.eqd k a.1) = true ∧ Table.eqd k a.1 = true)) = fun a => (!Table.eqd k a.1) && Table.eqd k a.1 from by funext a; simp, this]
    simp [Table.eqd]
  · rw [Table.get_spec H h2 h3 hk', Table.get_spec H wf hk hk', Hof.find_perm h4 hp, List.find?_append, List.find?_filter]
    have : ([(k, e)] : List (Obj × VElem)).find? (fun e => Table.eqd k' e.1) = none := by simp [Table.eqd, hne]
    simp only [Option.map_some, Option.toList_some]
    rw [this, Option.or_none]
    congr 2
    apply Table.find_congr
    intro a _
    by_cases hh : k' = a.1
    · subst hh
      simp [Table.eqd, hne.symm]
    · simp [Table.eqd, hh]
  · show FMap.get (FMap.set _ _ _) _ = _
    rw [FMap.get_set, if_neg hj]

/-- **C80** The entry that comes out of the manager is stored under the key of the message with the timestamp the local entry has after the call, and then queued for sending. -/
theorem C80_stored (hs : st.onconflict = some ca) (hm : mgr ca l v vm = .ok (x, some e)) (hg : FMap.get x.other.vstigs id = some st') (H : Table.Homog E.sc S)
    (wf : Dict.WF Table.hashN Table.eqd st'.data) (hk : Table.Keys S st'.data) (h : S k) {l' : VElem} (hl : Table.get E.sc st'.data k = .ok (some l')) (hn : ¬ (e.robot ≠ me ∧ l'.robot = me)) :
    ∃ w, stigConflict E me mgr hook id st k l v vm = stigQueue E .put id { e with key := v.key, ts := l'.ts } w ∧ w.heap = x.heap ∧ StoredIn E S id k { e with key := v.key, ts := l'.ts } x w st' := by
  obtain ⟨w, h1, h2, h3⟩ := stored_in (E := E) (id := id) (e := { e with key := v.key, ts := l'.ts }) (x := x) H wf hk h
  refine ⟨w, ?_, h2, h3⟩
  have stamp : stigStamp st l' e = { e with ts := l'.ts } := by unfold stigStamp; rw [hs]; rfl
  unfold stigConflict stigResolve
  rw [hs]
  simp only
  rw [hm, Res.ok_bind]
  simp only
  rw [hg]
  simp only
  rw [hl, Res.ok_bind]
  simp only [stamp]
  rw [if_neg hn, h1, Res.ok_bind]

/-- **C80** If the entry of the robot itself loses against the entry of another robot, the function for lost conflicts is called, with a copy of what was lost, after the winner has been stored and
before it is queued; without such a function nothing is called. -/
theorem C80_lost_called (hs : st.onconflict = some ca) (hm : mgr ca l v vm = .ok (x, some e)) (hg : FMap.get x.other.vstigs id = some st') (H : Table.Homog E.sc S)
    (wf : Dict.WF Table.hashN Table.eqd st'.data) (hk : Table.Keys S st'.data) (h : S k) {l' : VElem} (hl : Table.get E.sc st'.data k = .ok (some l')) (h1 : e.robot ≠ me) (h2 : l'.robot = me)
    {p : Heap × Nat} (hp : clone E.sc (x.heap.objs.length + 1) x.heap l'.data = .ok p) :
    ∃ w, w.heap = p.1 ∧ StoredIn E S id k { e with key := v.key, ts := l'.ts } x w st' ∧
      stigConflict E me mgr hook id st k l v vm = (match st'.onconflictlost with
        | some f => hook f { l' with key := v.key, data := p.2 } w
        | none => .ok w) >>= stigQueue E .put id { e with key := v.key, ts := l'.ts } := by
  obtain ⟨w, g1, g2, g3⟩ := stored_in (E := E) (id := id) (e := { e with key := v.key, ts := l'.ts }) (x := { x with heap := p.1 }) H wf hk h
  refine ⟨w, g2, ⟨g3.ex, g3.others, g3.eq⟩, ?_⟩
  have stamp : stigStamp st l' e = { e with ts := l'.ts } := by unfold stigStamp; rw [hs]; rfl
  unfold stigConflict stigResolve
  rw [hs]
  simp only
  rw [hm, Res.ok_bind]
  simp only
  rw [hg]
  simp only
  rw [hl, Res.ok_bind]
  simp only [stamp]
  rw [if_pos ⟨h1, h2⟩, hp, Res.ok_bind, g1, Res.ok_bind]
  cases st'.onconflictlost <;> rfl

end Buzz.Props
