import Verif.Props.Session
import Verif.NbrSem

/-
What a robot knows of its neighbors: property C72.

The specification speaks of readings (`Lang.Reading`: the number of a robot and the bits of its distance, azimuth and elevation) and of the last
reading of a robot (`Lang.lastOf`).  What the host does with the readings of a round is `Lang.senses`, a list of commands as in C71.
-/
namespace Buzz.Props

open Buzz.Msg Buzz.Lex Buzz.Debug Buzz.Asm Buzz.Parser Buzz.Comp Buzz.VM Buzz.Heap Buzz.Sim Buzz.Link
open Buzz.Lang (Ast Thing Scope Shape St T2 Syn complete Legal globalVal valueOf self Reading lastOf senses poseOf Sees Stays SameRest sameKind entryOf)

/-! ## C72 -/

/-- **C72**: before the first readings a robot has no neighbors: `neighbors.count()` is 0 and `neighbors.get(i)` is nil for all `i`. -/
theorem C72_before (robot : Nat) (s0 s1 : St) (h : Lang.install robot s0 = .ok () s1) :
    ∃ l, globalVal (ascii "neighbors") s1 = .tab l ∧ Lang.stdLib 7 [.tab l] s1 = .ok (.int 0) s1 ∧ ∀ i, Lang.stdLib 0 [.tab l, .int i] s1 = .ok .nil s1 := by
  obtain ⟨s1', i1, i2⟩ := C67_library robot s0
  rw [h] at i1
  cases i1
  obtain ⟨l, k1, es, k2, k3, _⟩ := standard_two i2 (lib := "neighbors") (by decide) (by decide) rfl (by decide) (m := 0) (m' := 7) (name := "get") (name' := "count") (by decide) rfl (by decide) rfl
  have hg : globalVal (ascii "neighbors") s1 = .tab l := by unfold globalVal; rw [k1]; rfl
  have hn : entryOf (.str 0 (ascii "poses")) es = none := by
    have := i2.unseen
    rw [hg] at this
    unfold Sim.field at this
    simp only at this
    rw [k2] at this
    exact this
  have e : Lang.tabGet (.tab l) (.str 0 (ascii "poses")) s1 = .ok .nil s1 := by
    obtain ⟨g, st, sc⟩ := s1
    rw [Lang.get_tab k2 (Lang.str_kinds k3), hn]
    rfl
  refine ⟨l, hg, ?_, fun i => ?_⟩
  · show Lang.nbrCount (.tab l) [] _ = _
    exact (bind_eq e).trans rfl
  · show Lang.nbrGet (.tab l) [.int i] _ = _
    exact (bind_eq e).trans rfl

/-- **C72**: after a round's readings a robot knows them, whatever it knew before.  In every state in which the global variable `neighbors` is a table
with string keys, the commands of the readings `rs` succeed, and then
* `neighbors.count()` is the number of different robots among the readings;
* `neighbors.get(i)` is nil if there is no reading of the robot `i`, and otherwise a table with the distance, azimuth and elevation of its last reading;
* no global variable has another value, no function is changed, and the other entries of `neighbors` stay. -/
theorem C72_readings (robot nf : Nat) (hnf : nf ≤ 65535) (g : List (Bytes × Obj)) (st : List Thing) (l : Nat) (es : List (Obj × Obj)) (hg : valueOf (ascii "neighbors") g = some (.tab l))
    (hl : st[l]? = some (.tab es)) (hk : ∀ e ∈ es, sameKind (.str 0 []) e.1 = true) (rs : List Reading) (hid : ∀ r ∈ rs, r.id < 65536) :
    ∃ st', Lang.hostRegs robot (senses rs) nf ⟨g, st, .top⟩ = .ok nf ⟨g, st', .top⟩ ∧
      (∀ s, s.store = st' → Lang.stdLib 7 [.tab l] s = .ok (.int ((rs.map (·.id)).toFinset.card : Int)) s) ∧
      (∀ s i, s.store = st' → match lastOf i rs with
        | none => Lang.stdLib 0 [.tab l, .int i] s = .ok .nil s
        | some r => ∃ m, Lang.stdLib 0 [.tab l, .int i] s = .ok (.tab m) s ∧ ∀ s', s'.store = st' →
            Lang.tabGet (.tab m) (.str 0 (ascii "distance")) s' = .ok (.flt (ofBits r.d)) s' ∧
            Lang.tabGet (.tab m) (.str 0 (ascii "azimuth")) s' = .ok (.flt (ofBits r.a)) s' ∧
            Lang.tabGet (.tab m) (.str 0 (ascii "elevation")) s' = .ok (.flt (ofBits r.e)) s') ∧
      Stays st st' ∧ ∃ es', st'[l]? = some (.tab es') ∧ (∀ e ∈ es', sameKind (.str 0 []) e.1 = true) ∧ ∀ k, k ≠ ascii "poses" → entryOf (.str 0 k) es' = entryOf (.str 0 k) es := by
  have hk' : (es.all fun e => sameKind (.str 0 []) e.1) = true := List.all_eq_true.mpr hk
  obtain ⟨st', es', p, ps, e1, h1, k1, f1⟩ := Lang.senses_see (id := .int (robot : Int)) (nf := nf) hg hl hk' rs
  have hcard : (rs.map (·.id)).toFinset.card = (rs.map (·.id)).dedup.length := List.card_toFinset _
  have hlt : (rs.map (·.id)).dedup.length < 2147483648 := by
    rw [← hcard]
    have : (rs.map (·.id)).toFinset ⊆ Finset.range 65536 := by
      intro x hx
      obtain ⟨r, hr, rfl⟩ := List.mem_map.mp (List.mem_toFinset.mp hx)
      exact Finset.mem_range.mpr (hid r hr)
    have := Finset.card_le_card this
    rw [Finset.card_range] at this
    omega
  refine ⟨st', ?_, fun s hs => ?_, fun s i hs => ?_, k1, ?_⟩
  · unfold Lang.hostRegs
    rw [e1]
    simp only
    rw [if_pos ⟨rfl, hnf⟩]
  · obtain ⟨g0, _, sc⟩ := s
    cases hs
    rw [hcard]
    exact h1.count hlt g0 sc
  · obtain ⟨g0, _, sc⟩ := s
    cases hs
    have := h1.get i g0 sc
    cases hi : lastOf i rs with
    | none => rw [hi] at this; exact this
    | some r =>
      rw [hi] at this
      obtain ⟨m, m1, m2⟩ := this
      refine ⟨m, m1, fun s' hs => ?_⟩
      obtain ⟨g', _, sc'⟩ := s'
      cases hs
      exact Lang.get_pose m2
  · obtain ⟨es2, q1, q2⟩ := f1 es hl
    rw [h1.tab] at q1
    cases q1
    exact ⟨es', h1.tab, fun e he => List.all_eq_true.mp h1.keys e he, q2⟩

/-! ### A robot that watches the robot 7 -/

/-- `function init() { n=0 }`, newline, `function step() { n=neighbors.count(); p=neighbors.get(7); if(p) d=p.distance }`. -/
def watchParts : List Part :=
  [.word 3, .gap, .name (chars "init"), .mark 3, .mark 4, .gap, .mark 1, .gap, .name [110], .mark 9, .num [48], .gap, .mark 2, .nl,
   .word 3, .gap, .name (chars "step"), .mark 3, .mark 4, .gap, .mark 1, .gap, .name [110], .mark 9, .name (chars "neighbors"), .mark 8, .name (chars "count"), .mark 3, .mark 4, .mark 0, .gap,
   .name [112], .mark 9, .name (chars "neighbors"), .mark 8, .name (chars "get"), .mark 3, .num [55], .mark 4, .mark 0, .gap,
   .word 1, .mark 3, .name [112], .mark 4, .gap, .name [100], .mark 9, .name [112], .mark 8, .name (chars "distance"), .gap, .mark 2]

def watchText : Bytes := chars "function init() { n=0 }\nfunction step() { n=neighbors.count(); p=neighbors.get(7); if(p) d=p.distance }"

def watchFs : FS := fun n => if n = [97] then some ([97], watchText) else none

def watchStep : Ast :=
  .seq (.assign (.id [110]) (.call (.field (.id (chars "neighbors")) (chars "count")) .noArg))
    (.seq (.assign (.id [112]) (.call (.field (.id (chars "neighbors")) (chars "get")) (.arg .noArg (.num [55]))))
      (.seq (.ifs (.id [112]) (.assign (.id [100]) (.field (.id [112]) (chars "distance")))) .skip))

def watch : Ast := .seq (.func (chars "init") [] botInit) (.seq (.func (chars "step") [] watchStep) .skip)

theorem watch_text : parts (watchParts ++ [Part.nl]) = watchText ++ [10] := by decide +kernel

def watchToks : List T2 :=
  [(.fun_, chars "function"), (.id, chars "init"), (.paropen, []), (.parclose, []), (.blockopen, []), (.id, [110]), (.assign, []), (.const, [48]), (.blockclose, []),
   (.fun_, chars "function"), (.id, chars "step"), (.paropen, []), (.parclose, []), (.blockopen, []),
   (.id, [110]), (.assign, []), (.id, chars "neighbors"), (.dot, []), (.id, chars "count"), (.paropen, []), (.parclose, []),
   (.id, [112]), (.assign, []), (.id, chars "neighbors"), (.dot, []), (.id, chars "get"), (.paropen, []), (.const, [55]), (.parclose, []),
   (.if_, chars "if"), (.paropen, []), (.id, [112]), (.parclose, []), (.id, [100]), (.assign, []), (.id, [112]), (.dot, []), (.id, chars "distance"), (.blockclose, [])]

theorem watch_syn : Syn .stats watchToks watch := by
  have b1 : Syn .blk _ botInit := Syn.blk (v := []) (w := []) (.stats (.simple (.assign (v := []) .id (by simp) (syn_expr (.num (t := [48]))))) .stats0 (by simp))
  have c1 : Syn .stat _ (.assign (.id [110]) (.call (.field (.id (chars "neighbors")) (chars "count")) .noArg)) :=
    .simple (.assign (v := []) .id (by simp) (syn_expr (.ref (.call0 (v := []) (w := []) (.field (v := []) .id)))))
  have c2 : Syn .stat _ (.assign (.id [112]) (.call (.field (.id (chars "neighbors")) (chars "get")) (.arg .noArg (.num [55])))) :=
    .simple (.assign (v := []) .id (by simp) (syn_expr (.ref (.call (v := []) (w := []) (.field (v := []) .id) (.arg1 (.cond (.logic1 (.cmp1 (syn_expr (.num (t := [55])))))))))))
  have c3 : Syn .stat _ (.ifs (.id [112]) (.assign (.id [100]) (.field (.id [112]) (chars "distance")))) :=
    .ifs (u := chars "if") (v := []) (w := []) (.cond (.logic1 (.cmp1 (syn_expr (.ref (.id (x := [112]))))))) (.sub (.simple (.assign (v := []) .id (by simp) (syn_expr (.ref (.field (v := []) .id))))))
  have b2 : Syn .blk _ watchStep := Syn.blk (v := []) (w := []) (.stats c1 (.stats c2 (.stats c3 .stats0 (by simp)) (by simp [Lang.bare])) (by simp [Lang.bare]))
  exact .stats (.func (u := chars "function") (v := []) (w := []) .nil b1) (.stats (.func (u := chars "function") (v := []) (w := []) .nil b2) .stats0 (by simp)) (by simp [Lang.bare])

theorem watch_program (T : Tools) : Link.Program T [] watch where
  whole := rfl
  legal := by simp [watch, botInit, watchStep, Lang.Legal, Lang.decls, Lang.Shape.ext]
  once := by simp only [watch, Lang.functions, Lang.decls]; decide
  nums := by
    intro t ht
    have ht : t ∈ ([[48], [55]] : List Bytes) := ht
    simp only [List.mem_cons, List.not_mem_nil, or_false] at ht
    rcases ht with rfl | rfl
    · exact ⟨by decide, by unfold Clean; decide, fun h => absurd h (by decide), fun _ => ⟨0, by decide, by decide⟩⟩
    · exact ⟨by decide, by unfold Clean; decide, fun h => absurd h (by decide), fun _ => ⟨7, by decide, by decide⟩⟩
  strs := by
    show ∀ s ∈ ([chars "init", [110], chars "step", chars "neighbors", chars "count", [112], chars "get", [100], chars "distance"] : List Bytes), ∀ c ∈ s, c ≠ 0 ∧ c ≠ 10
    decide
  count := by decide
  small := by decide

/-- The state before the program: the functions are known. -/
def watchStart : St := ⟨[(chars "step", .clo 1), (chars "init", .clo 0)], [.fn [] botInit [(self, .nil)], .fn [] watchStep [(self, .nil)]], .top⟩

theorem watch_starts : Lang.initial watch = .ok () watchStart := by
  unfold Lang.initial watch watchStart
  rfl

theorem const7 {H : Lang.Host} : Lang.constVal H [55] = some (.int 7) := by
  have : Lang.decimal [55] = some 7 := by decide +kernel
  rw [Lang.constVal, if_neg (by decide), this]
  rfl

/-- A call of a function of the host that does not change the state. -/
theorem apply_same {lib : Lang.Lib} {run : Ast → Lang.Ev (List Obj)} {f k : Nat} {w v : Obj} {vs : List Obj} {g : List (Bytes × Obj)} {st : List Thing} {sc : Scope} (hf : st[f]? = some (.host k [w]))
    (hl : vs.length < Lang.limit) (h : lib k (w :: vs) ⟨g, st, .top⟩ = .ok v ⟨g, st, .top⟩) : Lang.apply lib run (.clo f) vs ⟨g, st, sc⟩ = .ok v ⟨g, st, sc⟩ := by
  unfold Lang.apply
  rw [if_neg (by omega)]
  refine (ev_bind (look_some (s := ⟨g, st, sc⟩) hf)).trans ?_
  show (match lib k (w :: vs) ⟨g, st, .top⟩ with | .ok v s' => Lang.Out.ok v { s' with scope := sc } | .err e => .err e | _ => .odd) = _
  rw [h]

/-- The functions of `neighbors` that the robot calls. -/
def nbrFns (l : Nat) : List (Bytes × Thing) := [(chars "get", .host 0 [.tab l]), (chars "count", .host 7 [.tab l])]

/-- The robot's program is there; `n` is the number of robots among the readings of the last round, and `d` the distance of the last reading of the
robot 7. -/
structure WatchAt (l : Nat) (round all : List Reading) (s : St) : Prop where
  scope : s.scope = .top
  step : valueOf (chars "step") s.globals = some (.clo 1)
  body : s.store[1]? = some (.fn [] watchStep [(self, .nil)])
  fns : HasFns (chars "neighbors") s.globals s.store l (nbrFns l)
  count : valueOf [110] s.globals = some (.int ((round.map (·.id)).toFinset.card : Int))
  dist : ∀ r, lastOf 7 all = some r → valueOf [100] s.globals = some (.flt (ofBits r.d))

theorem lastOf_append (i : Int) (as bs : List Reading) : lastOf i (as ++ bs) = (lastOf i bs).or (lastOf i as) := by
  unfold lastOf
  rw [List.filter_append, List.getLast?_append]

theorem watch_round (E : Env) (strtof : Bytes → Option Nat) (n robot : Nat) {nf : Nat} (hn : nf ≤ 65535) {l : Nat} {old all : List Reading} {s : St} (h : WatchAt l old all s) (rs : List Reading)
    (hid : ∀ r ∈ rs, r.id < 65536) :
    ∃ s', Lang.round ⟨E, strtof, Lang.stdLib⟩ n robot nf (chars "step") (senses rs) s = .ok () s' ∧ WatchAt l rs (all ++ rs) s' := by
  obtain ⟨g, st, sc⟩ := s
  obtain ⟨h0, h1, h2, h3, h4, h5⟩ := h
  obtain rfl : sc = .top := h0
  obtain ⟨q1, es, q2, q3, q4⟩ := h3
  obtain ⟨st', e1, e2, e3, e4, es', e5, e6, e7⟩ := C72_readings robot nf hn g st l es q1 q2 (List.all_eq_true.mp q3) rs hid
  have hfn : HasFns (chars "neighbors") g st' l (nbrFns l) := by
    refine ⟨q1, es', e5, List.all_eq_true.mpr e6, fun k t hk => ?_⟩
    obtain ⟨f, f1, f2⟩ := q4 k t hk
    simp only [nbrFns, List.mem_cons, List.not_mem_nil, or_false, Prod.mk.injEq] at hk
    have hne : k ≠ ascii "poses" := by rcases hk with ⟨rfl, _⟩ | ⟨rfl, _⟩ <;> decide
    have ht : ∀ es, t ≠ .tab es := by rcases hk with ⟨_, rfl⟩ | ⟨_, rfl⟩ <;> simp
    exact ⟨f, by rw [e7 k hne]; exact f1, e4 f t ht f2⟩
  obtain ⟨fc, fc1, fc2⟩ := hfn.get (k := chars "count") (t := .host 7 [.tab l]) (by simp [nbrFns])
  let N : Int := ((rs.map (·.id)).toFinset.card : Int)
  let g1 := putG [110] (.int N) g
  have w1 : valueOf (chars "neighbors") g1 = some (.tab l) := (putG_ne (by decide) _ _).trans q1
  have hfn1 : HasFns (chars "neighbors") g1 st' l (nbrFns l) := ⟨w1, hfn.tab⟩
  obtain ⟨fg, fg1, fg2⟩ := hfn1.get (k := chars "get") (t := .host 0 [.tab l]) (by simp [nbrFns])
  have d1 : ∀ run, Lang.eval ⟨E, strtof, Lang.stdLib⟩ n run (.assign (.id [110]) (.call (.field (.id (chars "neighbors")) (chars "count")) .noArg)) false ⟨g, st', .fn [(self, .nil)]⟩ =
      .ok [] ⟨g1, st', .fn [(self, .nil)]⟩ := fun run =>
    ev_gset rfl (ev_call rfl rfl (ev_field rfl (ev_glob rfl q1) (fc2 _)) ev_noArg (apply_same fc1 (by unfold Lang.limit; simp) (e2 _ rfl))) rfl
  have get : ∀ run v, Lang.stdLib 0 [.tab l, .int 7] ⟨g1, st', .top⟩ = .ok v ⟨g1, st', .top⟩ →
      Lang.eval ⟨E, strtof, Lang.stdLib⟩ n run (.assign (.id [112]) (.call (.field (.id (chars "neighbors")) (chars "get")) (.arg .noArg (.num [55])))) false ⟨g1, st', .fn [(self, .nil)]⟩ =
        .ok [] ⟨putG [112] v g1, st', .fn [(self, .nil)]⟩ := fun run v hv =>
    ev_gset rfl (ev_call rfl rfl (ev_field rfl (ev_glob rfl w1) (fg2 _)) (ev_arg rfl ev_noArg (ev_num const7)) (apply_same fg1 (by unfold Lang.limit; simp) hv)) rfl
  have fin : ∀ g', (∀ run, Lang.eval ⟨E, strtof, Lang.stdLib⟩ n run watchStep false ⟨g, st', .fn [(self, .nil)]⟩ = .ok [] ⟨g', st', .fn [(self, .nil)]⟩) →
      (∀ x, x ≠ [110] → x ≠ [112] → x ≠ [100] → valueOf x g' = valueOf x g) → valueOf [110] g' = some (.int N) →
      (∀ r, lastOf 7 (all ++ rs) = some r → valueOf [100] g' = some (.flt (ofBits r.d))) →
      ∃ s', Lang.round ⟨E, strtof, Lang.stdLib⟩ n robot nf (chars "step") (senses rs) ⟨g, st, .top⟩ = .ok () s' ∧ WatchAt l rs (all ++ rs) s' := by
    intro g' r1 r2 r3 r4
    refine ⟨⟨g', st', .top⟩, ?_, rfl, (r2 _ (by decide) (by decide) (by decide)).trans h1, e4 1 _ (by simp) h2, ⟨(r2 _ (by decide) (by decide) (by decide)).trans q1, hfn.tab⟩, r3, r4⟩
    unfold Lang.round
    rw [bind_eq e1, if_pos rfl, bind_eq (call_body (l := 1) h1 (e4 1 _ (by simp) h2) r1)]
    rfl
  have hseven := e3 ⟨g1, st', .top⟩ 7 rfl
  cases hl : lastOf 7 rs with
  | none =>
    rw [hl] at hseven
    refine fin (putG [112] .nil g1) (fun run => ?_) ?_ ?_ ?_
    · refine ev_seq (d1 run) (ev_seq (get run .nil hseven) (ev_seq ?_ ev_skip))
      rw [ev_ifs rfl rfl (ev_glob rfl (putG_same _ _ _)), if_neg (by decide)]
    · intro x x1 x2 x3
      rw [putG_ne x2, putG_ne x1]
    · rw [putG_ne (by decide), putG_same]
    · intro r hr
      rw [lastOf_append, hl] at hr
      rw [putG_ne (by decide), putG_ne (by decide)]
      exact h5 r hr
  | some r =>
    rw [hl] at hseven
    obtain ⟨m, m1, m2⟩ := hseven
    refine fin (putG [100] (.flt (ofBits r.d)) (putG [112] (.tab m) g1)) (fun run => ?_) ?_ ?_ ?_
    · refine ev_seq (d1 run) (ev_seq (get run (.tab m) m1) (ev_seq ?_ ev_skip))
      rw [ev_ifs rfl rfl (ev_glob rfl (putG_same _ _ _)), if_pos (show truth (.tab m) = true from rfl)]
      exact ev_gset rfl (ev_field rfl (ev_glob rfl (putG_same _ _ _)) (m2 _ rfl).1) rfl
    · intro x x1 x2 x3
      rw [putG_ne x3, putG_ne x2, putG_ne x1]
    · rw [putG_ne (by decide), putG_ne (by decide), putG_same]
    · intro r' hr
      rw [lastOf_append, hl] at hr
      cases hr
      exact putG_same _ _ _

/-- Rounds with any readings. -/
theorem watch_rounds (E : Env) (strtof : Bytes → Option Nat) (n robot : Nat) {nf : Nat} (hn : nf ≤ 65535) {l : Nat} : ∀ (rss : List (List Reading)) {old all : List Reading} {s : St}, WatchAt l old all s →
    (∀ rs ∈ rss, ∀ r ∈ rs, r.id < 65536) →
    ∃ s', Lang.rounds ⟨E, strtof, Lang.stdLib⟩ n robot nf (chars "step") (rss.map senses) s = .ok () s' ∧ WatchAt l (rss.getLast?.getD old) (all ++ rss.flatten) s'
  | [], old, all, s, h, _ => ⟨s, rfl, by simpa using h⟩
  | rs :: rss, old, all, s, h, hid => by
    obtain ⟨s1, e1, h1⟩ := watch_round E strtof n robot hn h rs (hid rs (List.mem_cons_self ..))
    obtain ⟨s2, e2, h2⟩ := watch_rounds E strtof n robot hn rss h1 (fun rs' hm => hid rs' (List.mem_cons_of_mem _ hm))
    refine ⟨s2, ?_, ?_⟩
    · rw [List.map_cons, Lang.rounds, bind_eq e1]
      exact e2
    · rw [List.flatten_cons, ← List.append_assoc, List.getLast?_cons]
      exact h2

/-- The life of this robot. -/
theorem watch_life (E : Env) (strtof : Bytes → Option Nat) (n robot : Nat) {s1 : St} (h : Lang.install robot watchStart = .ok () s1) (rss : List (List Reading))
    (hid : ∀ rs ∈ rss, ∀ r ∈ rs, r.id < 65536) :
    ∃ s, Lang.life ⟨E, strtof, Lang.stdLib⟩ n robot (chars "init") (chars "step") [] (rss.map senses) watch s1 = .ok () s ∧
      globalVal [110] s = .int (((rss.getLast?.getD []).map (·.id)).toFinset.card : Int) ∧ ∀ r, lastOf 7 rss.flatten = some r → globalVal [100] s = .flt (ofBits r.d) := by
  obtain ⟨s1', i1, i2⟩ := C67_library robot watchStart
  rw [h] at i1
  cases i1
  obtain ⟨l, hfn⟩ := standard_two i2 (lib := "neighbors") (x := chars "neighbors") (by decide) (by decide) (by decide) (by decide) (m := 0) (m' := 7) (name := "get") (name' := "count")
    (a := chars "get") (a' := chars "count") (by decide) (by decide) (by decide) (by decide)
  obtain ⟨g, st, sc⟩ := s1
  obtain rfl : sc = .top := i2.scope
  have hg : ∀ x v, x ∉ libGlobals.map ascii → valueOf x watchStart.globals = some v → v ≠ .nil → valueOf x g = some v := by
    intro x v hx hv hn
    have := i2.others x hx
    unfold globalVal at this
    rw [hv] at this
    cases hgx : valueOf x g with
    | none => rw [hgx] at this; exact absurd this.symm hn
    | some w => rw [hgx] at this; exact congrArg some this
  have g1 : valueOf (chars "init") g = some (.clo 0) := hg _ _ (by decide +kernel) rfl (by simp)
  have g2 : valueOf (chars "step") g = some (.clo 1) := hg _ _ (by decide +kernel) rfl (by simp)
  have t0 : st[0]? = some (.fn [] botInit [(self, .nil)]) := i2.old 0 (by decide)
  have t1 : st[1]? = some (.fn [] watchStep [(self, .nil)]) := i2.old 1 (by decide)
  have e0 : Lang.hostRegs robot [] 65 ⟨g, st, .top⟩ = .ok 65 ⟨g, st, .top⟩ := rfl
  have e1 : Lang.exec ⟨E, strtof, Lang.stdLib⟩ n watch ⟨g, st, .top⟩ = .ok [] ⟨g, st, .top⟩ := by
    obtain ⟨run, hr⟩ := exec_is ⟨E, strtof, Lang.stdLib⟩ n watch
    rw [hr]
    have f : ∀ x b, Lang.eval ⟨E, strtof, Lang.stdLib⟩ n run (.func x [] b) false ⟨g, st, .top⟩ = .ok [] ⟨g, st, .top⟩ := fun _ _ => by rw [Lang.eval]; rfl
    exact ev_seq (f _ _) (ev_seq (f _ _) ev_skip)
  have e2 : Lang.callGlobal ⟨E, strtof, Lang.stdLib⟩ n (chars "init") ⟨g, st, .top⟩ = .ok .nil ⟨putG [110] (.int 0) g, st, .top⟩ :=
    call_body (l := 0) (env := [(self, .nil)]) g1 t0 fun run => ev_seq (ev_gset (v := .int 0) rfl (ev_num const0) rfl) ev_skip
  obtain ⟨s, e3, h3⟩ := watch_rounds E strtof n robot (nf := 65) (by decide) rss (old := []) (all := []) (s := ⟨putG [110] (.int 0) g, st, .top⟩) (l := l)
    ⟨rfl, (putG_ne (by decide) _ _).trans g2, t1, ⟨(putG_ne (by decide) _ _).trans hfn.glob, hfn.tab⟩, putG_same _ _ _, fun r hr => by cases hr⟩ hid
  refine ⟨s, ?_, ?_, fun r hr => ?_⟩
  · unfold Lang.life
    rw [bind_eq e0, bind_eq e1, bind_eq e2, e3]
  · unfold globalVal
    rw [h3.count]
    rfl
  · unfold globalVal
    rw [h3.dist r hr]
    rfl

/-- The robot on the machine: whatever its sensor reads in however many rounds, in the end `n` holds the number of different robots seen in the last
round, and `d` the distance of the robot 7 in the last reading of it, in whichever round that was, unless the table of strings is filled. -/
theorem C72_watch (order : List (Nat × Bytes) → List (Nat × Bytes)) (ho : ∀ l, (order l).Perm l) (other : CFuns) (hF : FOk other) :
    ∃ file code dbg vm1, (∃ N, ∀ m ≥ N, compile watchFs m [] [97] = .ok (some file)) ∧ asm someTools order file = .ok (some (code, dbg)) ∧
      (∃ N, ∀ m ≥ N, setBcode someEnv (stdFuns someEnv other) m 5 code VM.new = .ok vm1) ∧
      ∀ rss : List (List Reading), (∀ rs ∈ rss, ∀ r ∈ rs, r.id < 65536) →
        ControlCrowd someEnv (stdFuns someEnv other) 5 (chars "init") (chars "step") [] (rss.map senses) vm1 ∨
        ∃ vm2, (∃ N, ∀ m ≥ N, VM.control someEnv (stdFuns someEnv other) m 5 (chars "init") (chars "step") [] (rss.map senses) vm1 = .ok vm2) ∧ vm2.state = .ready ∧ vm2.stack = [] ∧
          (∃ a, FMap.get vm2.gsyms 1 = some a ∧ Holds vm2.heap a (.atom (.int (((rss.getLast?.getD []).map (·.id)).toFinset.card : Int)))) ∧
          ∀ r, lastOf 7 rss.flatten = some r → ∃ a, FMap.get vm2.gsyms 7 = some a ∧ Holds vm2.heap a (.atom (.flt (ofBits r.d))) := by
  obtain ⟨file, code, dbg, h1, h2, h3, h4⟩ := C71_robot watchFs someTools order ho [] [97] [97] watchText rfl (partToks [97] 1 0 (watchParts ++ [Part.nl])) true
    (watch_text ▸ parts_lexed watchFs [[97]] [97] (watchParts ++ [Part.nl]) 1 0 (by decide +kernel)) (by
      have : (∀ t ∈ partToks [97] 1 0 (watchParts ++ [Part.nl]), (mark t).line < 200 ∧ (mark t).col < 200 ∧ (mark t).fname = [97]) := by decide +kernel
      intro t ht
      obtain ⟨a1, a2, a3⟩ := this t ht
      refine ⟨by omega, by omega, ?_, ?_⟩
      · rw [a3]; decide
      · rw [a3]; rintro x ⟨⟩; decide)
    watchToks (by decide +kernel) (by decide) watch watch_syn (watch_program someTools) (by decide) someEnv other rfl hF Obj.strcmpDiff_law 5 (by decide)
    (chars "init") (chars "step") (by decide) (by decide)
  obtain ⟨s1, vm1, i1, h5, h7⟩ := h4 (Nat.le_trans h3 (by decide)) watchStart watch_starts
  refine ⟨file, code, dbg, vm1, h1, h2, h5, fun rss hid => ?_⟩
  obtain ⟨s, i2, i3, i4⟩ := watch_life someEnv someTools.strtof 0 5 i1 rss hid
  have hfine : ∀ cs ∈ rss.map senses, ∀ c ∈ cs, Link.Suits [] watch c := by
    intro cs hcs c hc
    obtain ⟨rs, hm, rfl⟩ := List.mem_map.mp hcs
    have hin : ascii "neighbors" ∈ Link.stringsOf [] watch := by decide
    simp only [senses, List.mem_cons, List.mem_map] at hc
    rcases hc with rfl | ⟨r, hr, rfl⟩
    · exact ⟨trivial, fun _ => hin⟩
    · exact ⟨hid rs hm r hr, fun _ => hin⟩
  refine (h7 [] (rss.map senses) (by simp) hfine 0).imp_right fun key => ?_
  rw [i2] at key
  obtain ⟨vm2, h8, h9, h10, _, _, ρ, h11⟩ := key
  have holds : ∀ (i : Nat) (x : Bytes) (o : Obj), (Link.stringsOf [] watch)[i]? = some x → globalVal x s = o → (∃ v, o = .int v) ∨ (∃ v, o = .flt v) →
      ∃ a, FMap.get vm2.gsyms i = some a ∧ Holds vm2.heap a (.atom o) := by
    intro i x o hi hx ho
    obtain ⟨k1, k2⟩ := h11.globals i x hi
    rw [hx] at k1 k2
    cases hg : FMap.get vm2.gsyms i with
    | none =>
      have := k2 hg
      rcases ho with ⟨v, rfl⟩ | ⟨v, rfl⟩ <;> cases this
    | some a =>
      obtain ⟨c, c1, c2⟩ := k1 a hg
      refine ⟨a, rfl, ?_⟩
      rcases ho with ⟨v, rfl⟩ | ⟨v, rfl⟩
      · cases c with
        | atom o => cases c2; exact c1
        | _ => cases c2
      · cases c with
        | atom o => cases c2; exact c1
        | _ => cases c2
  exact ⟨vm2, h8, h9, h10, holds 1 [110] _ rfl i3 (Or.inl ⟨_, rfl⟩), fun r hr => holds 7 [100] _ (by decide) (i4 r hr) (Or.inr ⟨_, rfl⟩)⟩

/-- Three rounds: robots 7 and 3 (7 twice), nobody, robots 4 and 5. In the end two robots are seen, and the last distance of the robot 7 is the second
reading of the first round. -/
example : let rss : List (List Reading) := [[⟨7, 1, 0, 0⟩, ⟨3, 2, 0, 0⟩, ⟨7, 4, 0, 0⟩], [], [⟨4, 8, 0, 0⟩, ⟨5, 16, 0, 0⟩, ⟨4, 32, 0, 0⟩]]
    ((rss.getLast?.getD []).map (·.id)).toFinset.card = 2 ∧ lastOf 7 rss.flatten = some ⟨7, 4, 0, 0⟩ := by decide

/-- **C72** A machine that is not ready (it has ended or failed) is left as it is, whatever readings the host gives it. -/
theorem C72_stopped (E : Env) (vm : VM) (h : vm.state ≠ .ready) (rs : List Reading) :
    (nbrReset E vm >>= fun v => rs.foldlM (fun v r => nbrAdd E r.id r.d r.a r.e v) v) = .ok vm := by
  have h1 : nbrReset E vm = .ok vm := by
    unfold nbrReset
    rw [if_pos h]
    rfl
  have h2 : ∀ r : Reading, nbrAdd E r.id r.d r.a r.e vm = .ok vm := by
    intro r
    unfold nbrAdd
    rw [if_pos h]
    rfl
  rw [h1, Res.ok_bind]
  induction rs with
  | nil => rfl
  | cons r rs ih => rw [List.foldlM_cons, h2 r, Res.ok_bind, ih]

/-- A machine without code is not ready; a ready one is changed by a reading: here it fails, as it has no table `neighbors`. -/
example : VM.new.state ≠ .ready ∧ ∃ w, nbrAdd someEnv 3 0 0 0 { VM.new with state := .ready } = .ok w ∧ w.state = .error :=
  ⟨by decide, _, rfl, rfl⟩

end Buzz.Props
