import Verif.Props.StigManagers
import Verif.Props.NbrRuns

/-
The functions of a table like `neighbors` that has no field `poses` (C78), such as the one returned by `neighbors.nonkin()` outside of swarms.
-/
namespace Buzz.Props

open Buzz.VM Buzz.F32 Buzz.Msg Buzz.Heap

variable {E : Env} {F : CFuns} {m : Nat} {sa : Nat} {vm : VM}

/-- A table with the methods of `neighbors` and without data. -/
def BareNeighbors (E : Env) (w : VM) (tt : Nat) : Prop := (∀ f ∈ nbrFields tt, Field E w tt f.1 f.2) ∧ NoField E w tt "poses"

theorem missing_get {args : List Nat} (M : Method vm sa args) {u : VM} (q : Prepared vm u) (hn : NoField E vm sa "poses") (hz : u.strings.id2str.length ≤ 65533) :
    ∃ w a, (pushName "poses" (pushAddr u sa) >>= tget E) = .ok w ∧ nbrPoses E u = .ok w ∧ Prepared u w ∧ w.stack = a :: u.stack ∧ Holds w.heap a (.atom .nil) ∧
      w.strings.id2str.length ≤ u.strings.id2str.length + 1 := by
  obtain ⟨t, sid, ht, h⟩ := id hn
  have p0 : Prepared u (pushAddr u sa) := (Prepared.refl q.inv).push ⟨_, q.heap _ _ ht⟩
  obtain ⟨w, a, e, p, s, n, z⟩ := read_none (E := E) p0.inv (ra := sa) (st := u.stack) rfl (x := "poses") (show u.strings.id2str.length ≤ 65533 from hz) ((hn.grow q.heap q.strs).grow p0.heap p0.strs)
  refine ⟨w, a, e, ?_, p0.trans p, s, n, z⟩
  unfold nbrPoses
  rw [method_load M q (k := 0) rfl, Res.ok_bind]
  exact e

theorem back_nil {args : List Nat} (M : Method vm sa args) {u : VM} (p : Prepared vm u) : ∃ w a, ret0 u = .ok w ∧ BackWith vm u w a ∧ Holds w.heap a (.atom .nil) := by
  obtain ⟨f, fs, b, st, r, q, hf, _, hr, hq⟩ := M.ex
  have hq2 := p.heap _ _ hq
  have hp := (peek_top (vm := { u with swarmstack := if f.swarm then u.swarmstack.tail else u.swarmstack, frames := fs, rest := r }) hq2 st).1
  have h : ∃ w, ret0 u = .ok w := by
    unfold ret0
    rw [p.frames.trans hf, p.rest.trans hr]
    simp only [retTo]
    unfold need
    rw [if_neg (by simp), hp, Res.ok_bind]
    exact ⟨_, rfl⟩
  obtain ⟨w, h⟩ := h
  have h0 := h
  unfold ret0 at h
  rw [p.frames.trans hf, p.rest.trans hr] at h
  simp only [retTo] at h
  unfold need at h
  rw [if_neg (by simp), hp, Res.ok_bind] at h
  cases h
  exact ⟨_, _, h0, ⟨⟨f, b, st, q, hf, hr, hq, rfl, rfl, rfl⟩, rfl, fun _ _ h => newobj_holds h⟩, holds_new p.inv.heap _⟩

theorem bare_made (law : Obj.StrcmpLaw E.sc) {v u w : VM} {tt : Nat} {t : Table.Tbl (Nat × Nat)} (mk : NMaking v u tt t (nbrFields tt)) (hh : w.heap = u.heap) (hs : w.strings = u.strings) {sid : Nat}
    (h : Strman.get v.strings sid = some (ascii "poses")) : BareNeighbors E w tt := by
  have hk := key_homog (sc := E.sc) law mk.prep.inv.strings .strs
  have hp := mk.prep.strs _ _ h
  refine ⟨fun f hf => ?_, t, sid, by rw [hh]; exact mk.tab, by rw [hs]; exact hp, ?_⟩
  · obtain ⟨sid, y, g1, g2, g3⟩ := mk.fields f hf
    exact ⟨t, sid, y, by rw [hh]; exact mk.tab, by rw [hs]; exact g1, get_mem hk mk.wf mk.keys g2, by rw [hh]; exact g3⟩
  · rw [Table.get_spec hk mk.wf mk.keys (show KeyOk .strs u.strings (.str sid (ascii "poses")) from ⟨rfl, hp, by decide⟩)]
    cases hx : (Dict.entries t).find? (fun e => Table.eqd (.str sid (ascii "poses")) e.1) with
    | none => rfl
    | some x =>
      obtain ⟨f, hf, sid', he⟩ := mk.only x (List.mem_of_find?_eq_some hx)
      have hn := nbrFields_names _ f hf
      have := List.find?_some hx
      simp only [Table.eqd, decide_eq_true_eq] at this
      rw [he] at this
      injection this with _ h
      exact absurd h.symm hn

/-- **C78** On a table without `poses`, `foreach` calls nothing and returns nil, whatever its argument is. -/
theorem C78_missing_foreach {ca : Nat} (M : Method vm sa [ca]) (hn : NoField E vm sa "poses") (hz : vm.strings.id2str.length ≤ 65533) :
    ∃ vm0 w a, nbrForeach E F m vm = .ok w ∧ Prepared vm vm0 ∧ BackWith vm vm0 w a ∧ Holds w.heap a (.atom .nil) := by
  obtain ⟨u, a, _, e, p, s, n, _⟩ := missing_get M (Prepared.refl M.inv) hn hz
  obtain ⟨w, b, h1, h2, h3⟩ := back_nil M p
  refine ⟨u, w, b, ?_, p, h2, h3⟩
  unfold nbrForeach
  rw [M.entry.lnum, Res.ok_bind, if_neg (by simp), e, Res.ok_bind, peek_at s, Res.ok_bind, cellAt_of n, Res.ok_bind]
  exact h1

/-- **C78** On a table without `poses`, `reduce` calls nothing and returns the initial value. -/
theorem C78_missing_reduce {ca a0 : Nat} (M : Method vm sa [ca, a0]) (hn : NoField E vm sa "poses") (hz : vm.strings.id2str.length ≤ 65533) :
    ∃ vm0 w, nbrReduce E F m vm = .ok w ∧ Prepared vm vm0 ∧ BackWith vm vm0 w a0 := by
  obtain ⟨u, a, _, e, p, s, n, _⟩ := missing_get M (Prepared.refl M.inv) hn hz
  obtain ⟨w, h1, h2, _⟩ := back_prep M p a0
  refine ⟨u, w, ?_, p, h2⟩
  unfold nbrReduce
  rw [M.entry.lnum, Res.ok_bind, if_neg (by simp), e, Res.ok_bind, peek_at s, Res.ok_bind, method_load M p (k := 2) (a := a0) rfl, Res.ok_bind,
    show peekAddr (pushAddr u a0) 1 = .ok a0 from rfl, Res.ok_bind, cellAt_of (u := pushAddr u a0) n, Res.ok_bind]
  exact h1

theorem back_new {args : List Nat} (M : Method vm sa args) {u : VM} (p : Prepared vm u) {c : Cell} (ok : VM.CellOk u.heap u.strings c) :
    ∃ vm0 w a, ret1 (push u c) = .ok w ∧ Prepared vm vm0 ∧ BackWith vm vm0 w a ∧ Holds w.heap a c := by
  have p1 : Prepared vm (push u c) := p.trans ⟨rfl, .inl rfl, fun a c h => holds_old p.inv.heap h, fun _ _ h => h, p.inv.push ok⟩
  have p2 := p1.restack (s := u.stack) fun b hb => p1.inv.stack b (List.mem_cons_of_mem _ hb)
  obtain ⟨w, h1, h2, h3, _⟩ := back_prep M p2 u.heap.brk
  exact ⟨_, w, _, h1, p2, h2, by rw [h3]; exact holds_new p.inv.heap _⟩

theorem peek_first {u : VM} {a : Nat} {s : List Nat} {c : Cell} (hs : u.stack = a :: s) (h : Holds u.heap a c) : peek u 1 = .ok (objOf a c) ∧ peekCell u 1 = .ok c := by
  have := peek_top (vm := u) h s
  have e : ({ u with stack := a :: s } : VM) = u := by rw [← hs]
  rw [e] at this
  exact ⟨this.1, this.2.1⟩

/-- **C78** On a table without `poses`, `count` is 0. -/
theorem C78_missing_count (M : Method vm sa []) (hn : NoField E vm sa "poses") (hz : vm.strings.id2str.length ≤ 65533) :
    ∃ vm0 w a, nbrCount E vm = .ok w ∧ Prepared vm vm0 ∧ BackWith vm vm0 w a ∧ Holds w.heap a (.atom (.int 0)) := by
  obtain ⟨u, a, _, e, p, s, n, _⟩ := missing_get M (Prepared.refl M.inv) hn hz
  obtain ⟨vm0, w, b, h1, h2, h3, h4⟩ := back_new M p (c := .atom (.int 0)) (by show I32 0; unfold I32; decide)
  refine ⟨vm0, w, b, ?_, h2, h3, h4⟩
  unfold nbrCount
  rw [M.entry.lnum, Res.ok_bind, if_neg (by simp), e, Res.ok_bind, (peek_first s n).2, Res.ok_bind]
  exact h1

/-- **C78** On a table without `poses`, `get` is nil. -/
theorem C78_missing_get {a : Nat} (M : Method vm sa [a]) (hn : NoField E vm sa "poses") (hz : vm.strings.id2str.length ≤ 65533) :
    ∃ vm0 w b, VM.nbrGet E vm = .ok w ∧ Prepared vm vm0 ∧ BackWith vm vm0 w b ∧ Holds w.heap b (.atom .nil) := by
  obtain ⟨u, _, _, e, p, s, n, _⟩ := missing_get M (Prepared.refl M.inv) hn hz
  obtain ⟨vm0, w, b, h1, h2, h3, h4⟩ := back_new M p (c := .atom .nil) trivial
  refine ⟨vm0, w, b, ?_, h2, h3, h4⟩
  unfold VM.nbrGet
  rw [M.entry.lnum, Res.ok_bind, if_neg (by simp), e, Res.ok_bind, (peek_first s n).1, Res.ok_bind]
  exact h1

theorem missing_table (law : Obj.StrcmpLaw E.sc) {args : List Nat} (M : Method vm sa args) (hn : NoField E vm sa "poses") (hz : vm.strings.id2str.length + 10 ≤ 65534) :
    ∃ u0 a u1 u2 w tt, pushName "poses" (pushAddr vm sa) = .ok u0 ∧ tget E u0 = .ok u1 ∧ peekAddr u1 1 = .ok a ∧ nbrTable E u1 = .ok (u2, tt) ∧ Prepared vm u2 ∧ Holds u2.heap a (.atom .nil) ∧
      ret1 (pushAddr u2 tt) = .ok w ∧ BackWith vm u2 w tt ∧ ¬ Live vm.heap tt ∧ BareNeighbors E w tt ∧ (∃ w', ret1 (pushAddr (pushAddr u2 tt) tt) = .ok w' ∧ BackWith vm u2 w' tt ∧ BareNeighbors E w' tt) := by
  obtain ⟨_, sid, _, hsid, _⟩ := id hn
  obtain ⟨u1, a, e, _, p, s, n, z⟩ := missing_get (E := E) M (Prepared.refl M.inv) hn (by omega)
  obtain ⟨u0, e0, e1⟩ := Res.bind_eq_ok.mp e
  obtain ⟨u2, t2, e2, m2, s2, z2⟩ := table_made (E := E) law p.inv (by omega)
  have p2 := p.trans m2.prep
  obtain ⟨w, h1, h2, h3, h4⟩ := back_prep M p2 u1.heap.brk
  obtain ⟨w', g1, g2, g3, g4⟩ := back_prep M (p2.push (a := u1.heap.brk) ⟨_, m2.tab⟩) u1.heap.brk
  exact ⟨u0, a, u1, u2, w, _, e0, e1, peek_at s, e2, p2, m2.prep.heap _ _ n, h1, h2, fun ⟨c, h⟩ => m2.fresh c (p.heap _ _ h), bare_made law m2 h3 h4 (p.strs _ _ hsid), w', g1,
    ⟨g2.ex, g2.eq, g2.heap⟩, bare_made law m2 g3 g4 (p.strs _ _ hsid)⟩

theorem missing_build (law : Obj.StrcmpLaw E.sc) {ca : Nat} (body : Nat → Nat → Nat → Entry3 → VM → Res VM) (M : Method vm sa [ca]) (hn : NoField E vm sa "poses") (hz : vm.strings.id2str.length + 10 ≤ 65534) :
    ∃ vm0 w tt, nbrBuild E m body vm = .ok w ∧ Prepared vm vm0 ∧ BackWith vm vm0 w tt ∧ ¬ Live vm.heap tt ∧ BareNeighbors E w tt := by
  obtain ⟨u0, a, u1, u2, w, tt, e0, e1, e2, e3, p, n, -, -, fr, -, w', h1, h2, h3⟩ := missing_table (E := E) law M hn hz
  obtain ⟨t, _, ht, _⟩ := hn
  refine ⟨u2, w', tt, ?_, p, h2, fr, h3⟩
  unfold nbrBuild
  rw [M.entry.lnum, Res.ok_bind, if_neg (by simp), method_load M (Prepared.refl M.inv) (k := 0) rfl, Res.ok_bind, (peek_push ht).1, Res.ok_bind]
  simp only
  rw [e0, Res.ok_bind, e1, Res.ok_bind, e2, Res.ok_bind, e3, Res.ok_bind]
  simp only
  rw [if_neg (by rw [p.state, M.ready]; simp), cellAt_of (u := pushAddr u2 tt) n, Res.ok_bind]
  exact h1

/-- **C78** On a table without `poses`, `map` and `filter` call nothing and return a new table with the methods of `neighbors` and without data. -/
theorem C78_missing_map (law : Obj.StrcmpLaw E.sc) {ca : Nat} (M : Method vm sa [ca]) (hn : NoField E vm sa "poses") (hz : vm.strings.id2str.length + 10 ≤ 65534) :
    (∃ vm0 w tt, nbrMap E F m vm = .ok w ∧ Prepared vm vm0 ∧ BackWith vm vm0 w tt ∧ ¬ Live vm.heap tt ∧ BareNeighbors E w tt) ∧
    (∃ vm0 w tt, nbrFilter E F m vm = .ok w ∧ Prepared vm vm0 ∧ BackWith vm vm0 w tt ∧ ¬ Live vm.heap tt ∧ BareNeighbors E w tt) :=
  ⟨missing_build law _ M hn hz, missing_build law _ M hn hz⟩

/-- **C78** On a table without `poses`, `kin` and `nonkin` return a new table with the methods of `neighbors` and without data. -/
theorem C78_missing_kin (law : Obj.StrcmpLaw E.sc) (M : Method vm sa []) (hn : NoField E vm sa "poses") (hz : vm.strings.id2str.length + 10 ≤ 65534) :
    (∃ vm0 w tt, nbrKin E vm = .ok w ∧ Prepared vm vm0 ∧ BackWith vm vm0 w tt ∧ ¬ Live vm.heap tt ∧ BareNeighbors E w tt) ∧
    (∃ vm0 w tt, nbrNonkin E vm = .ok w ∧ Prepared vm vm0 ∧ BackWith vm vm0 w tt ∧ ¬ Live vm.heap tt ∧ BareNeighbors E w tt) := by
  obtain ⟨t, sid, ht, hsid, _⟩ := id hn
  constructor
  · obtain ⟨u0, a, u1, u2, w, tt, e0, e1, e2, e3, p, n, h1, h2, fr, h3, -⟩ := missing_table (E := E) law M hn hz
    refine ⟨u2, w, tt, ?_, p, h2, fr, h3⟩
    unfold nbrKin
    rw [M.entry.lnum, Res.ok_bind, if_neg (by simp)]
    simp only
    rw [method_load M (Prepared.refl M.inv) (k := 0) rfl, Res.ok_bind, (peek_push ht).1, Res.ok_bind]
    simp only
    rw [e0, Res.ok_bind, e1, Res.ok_bind, e2, Res.ok_bind, e3, Res.ok_bind]
    simp only
    rw [if_neg (by rw [p.state, M.ready]; simp), cellAt_of n, Res.ok_bind]
    exact h1
  · obtain ⟨u2, t2, e2, m2, s2, z2⟩ := table_made (E := E) law M.inv (by omega)
    by_cases hs : Hof.topSwarm vm.swarmstack < 0
    · obtain ⟨w, h1, h2, h3, h4⟩ := back_prep M m2.prep vm.heap.brk
      refine ⟨u2, w, _, ?_, m2.prep, h2, fun ⟨c, h⟩ => m2.fresh c h, bare_made law m2 h3 h4 hsid⟩
      unfold nbrNonkin
      rw [M.entry.lnum, Res.ok_bind, if_neg (by simp)]
      simp only
      rw [e2, Res.ok_bind]
      simp only
      rw [if_neg (by rw [m2.prep.state, M.ready]; simp), if_pos hs, h1]
    · obtain ⟨u3, a, -, e3, p3, s3, n3, z3⟩ := missing_get (E := E) M m2.prep hn (by omega)
      have b2 := bare_made (E := E) law m2 (w := u2) rfl rfl hsid
      obtain ⟨w, h1, h2, h3, h4⟩ := back_prep M (m2.prep.trans p3) vm.heap.brk
      refine ⟨u3, w, _, ?_, m2.prep.trans p3, h2, fun ⟨c, h⟩ => m2.fresh c h, fun f hf => ?_, ?_⟩
      · unfold nbrNonkin
        rw [M.entry.lnum, Res.ok_bind, if_neg (by simp)]
        simp only
        rw [e2, Res.ok_bind]
        simp only
        rw [if_neg (by rw [m2.prep.state, M.ready]; simp), if_neg hs, e3, Res.ok_bind, peek_at s3, Res.ok_bind, cellAt_of n3, Res.ok_bind]
        exact h1
      · obtain ⟨t, sid, y, g1, g2, g3, g4⟩ := b2.1 f hf
        exact ⟨t, sid, y, by rw [h3]; exact p3.heap _ _ g1, by rw [h4]; exact p3.strs _ _ g2, g3, by rw [h3]; exact p3.heap _ _ g4⟩
      · exact b2.2.grow (fun a c h => by rw [h3]; exact p3.heap _ _ h) (fun j s h => by rw [h4]; exact p3.strs _ _ h)

/-- **C78** What `neighbors.nonkin()` returns outside of swarms, once a script or the host has used the name `poses`, is such a table. -/
theorem C78_nonkin_bare (law : Obj.StrcmpLaw E.sc) (M : Method vm sa []) (hv : vm.swarmstack = []) {sid : Nat} (hsid : Strman.get vm.strings sid = some (ascii "poses"))
    (hz : vm.strings.id2str.length + 10 ≤ 65534) : ∃ vm0 w tt, nbrNonkin E vm = .ok w ∧ Prepared vm vm0 ∧ BackWith vm vm0 w tt ∧ BareNeighbors E w tt := by
  obtain ⟨u2, t2, e2, m2, s2, z2⟩ := table_made (E := E) law M.inv (by omega)
  obtain ⟨w, h1, h2, h3, h4⟩ := back_prep M m2.prep vm.heap.brk
  refine ⟨u2, w, _, ?_, m2.prep, h2, bare_made law m2 h3 h4 hsid⟩
  unfold nbrNonkin
  rw [M.entry.lnum, Res.ok_bind, if_neg (by simp)]
  simp only
  rw [e2, Res.ok_bind]
  simp only
  rw [if_neg (by rw [m2.prep.state, M.ready]; simp), if_pos (by rw [hv]; simp [Hof.topSwarm]), h1]

/-- The hypotheses of these theorems hold of a machine, for any number of arguments. -/
example (n : Nat) : ∃ (vm : VM) (sa : Nat), Obj.StrcmpLaw someEnv.sc ∧ Method vm sa (List.replicate n 3) ∧ NoField someEnv vm sa "poses" ∧ BareNeighbors someEnv vm sa ∧
    Holds vm.heap 3 (.clo true 2 [0]) ∧ vm.swarmstack = [] ∧ vm.strings.id2str.length + 10 ≤ 65534 ∧ ∃ sid, Strman.get vm.strings sid = some (ascii "poses") := by
  obtain ⟨v, sa, pa, t, M, ⟨_, sid, _, _, hsid, _⟩, -, h3, -, -, hz, hv⟩ := nbr_method 0
  obtain ⟨u, tb, _, m1, s1, z1⟩ := table_made (E := someEnv) Obj.strcmpDiff_law M.inv (by omega)
  have p1 := m1.prep.restack (s := List.replicate n 3) fun b hb => by
    rw [List.eq_of_mem_replicate hb]
    exact ⟨_, m1.prep.heap _ _ h3⟩
  have iw := p1.inv
  have hh : ∀ a c, Holds u.heap a c → Holds (enter { u with stack := List.replicate n 3 } n [v.heap.brk] false).heap a c := fun a c h => holds_old iw.heap h
  have b := (bare_made (E := someEnv) Obj.strcmpDiff_law m1 (w := u) rfl rfl hsid)
  have b2 : NoField someEnv (enter { u with stack := List.replicate n 3 } n [v.heap.brk] false) v.heap.brk "poses" := b.2.grow hh (fun _ _ h => h)
  refine ⟨enter { u with stack := List.replicate n 3 } n [v.heap.brk] false, v.heap.brk, Obj.strcmpDiff_law, ⟨iw.enter n false (by
      intro a ha
      simp only [List.mem_singleton] at ha
      subst ha
      exact ⟨_, m1.tab⟩), m1.prep.state.trans M.ready, ⟨_, _, _, _, _, u.pc, rfl, by simp, rfl, holds_new iw.heap _⟩⟩, b2, ⟨fun f hf => ?_, b2⟩, hh _ _ (m1.prep.heap _ _ h3), ?_, ?_, sid, m1.prep.strs _ _ hsid⟩
  · obtain ⟨t, sid, y, g1, g2, g3, g4⟩ := b.1 f hf
    exact ⟨t, sid, y, hh _ _ g1, g2, g3, hh _ _ g4⟩
  · show u.swarmstack = []
    rw [m1.prep.eq]
    exact hv
  · show u.strings.id2str.length + 10 ≤ 65534
    omega

end Buzz.Props
