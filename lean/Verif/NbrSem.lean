import Verif.SimTab
import Verif.Install
import Verif.Script

/-
What the readings of the neighbors mean: lemmas for property C72.
-/
namespace Buzz.Lang

open Buzz.Msg Buzz.VM Buzz.Sim
open Buzz.Props (sameKind_str entryOf_snoc entryOf_filter entryOf_gone)

/-- A reading of the sensor: the number of a robot, and the bits of its distance, azimuth and elevation. -/
structure Reading where
  id : Nat
  d : Nat
  a : Nat
  e : Nat
  deriving DecidableEq

/-- The last reading of the robot `i`. -/
def lastOf (i : Int) (rs : List Reading) : Option Reading := (rs.filter (fun r => decide ((r.id : Int) = i))).getLast?

/-- What the host does with the readings of a round (buzz_controller.cpp 745-778): the neighbors are forgotten, then every reading is added. -/
def senses (rs : List Reading) : List Cmd := .resetNbrs :: rs.map fun r => .addNbr r.id r.d r.a r.e

/-- The table of a reading. -/
def poseOf (r : Reading) : List (Obj × Obj) :=
  [(.str 0 (ascii "distance"), .flt (ofBits r.d)), (.str 0 (ascii "azimuth"), .flt (ofBits r.a)), (.str 0 (ascii "elevation"), .flt (ofBits r.e))]

/-- Functions stay as they are. -/
def Stays (st st' : List Thing) : Prop := ∀ (i : Nat) (t : Thing), (∀ es, t ≠ .tab es) → st[i]? = some t → st'[i]? = some t

/-- The table at `l` with string keys stays as it is except for its entry `poses`. -/
def SameRest (l : Nat) (st st' : List Thing) : Prop :=
  ∀ es, st[l]? = some (.tab es) → ∃ es', st'[l]? = some (.tab es') ∧ ∀ k, k ≠ ascii "poses" → entryOf (.str 0 k) es' = entryOf (.str 0 k) es

/-- The table `neighbors` at `l` has the data of the readings `rs`. -/
structure Sees (st : List Thing) (l : Nat) (rs : List Reading) (es : List (Obj × Obj)) (p : Nat) (ps : List (Obj × Obj)) : Prop where
  tab : st[l]? = some (.tab es)
  keys : (es.all fun e => sameKind (.str 0 []) e.1) = true
  poses : entryOf (.str 0 (ascii "poses")) es = some (.tab p)
  ne : p ≠ l
  data : st[p]? = some (.tab ps)
  nodup : (ps.map (·.1)).Nodup
  mem : ∀ k, k ∈ ps.map (·.1) ↔ ∃ r ∈ rs, k = .int (r.id : Int)
  last : ∀ i, match (generalizing := false) lastOf i rs with
    | none => entryOf (.int i) ps = none
    | some r => ∃ m, entryOf (.int i) ps = some (.tab m) ∧ m ≠ l ∧ m ≠ p ∧ st[m]? = some (.tab (poseOf r))

theorem put_tab {g : List (Bytes × Obj)} {st : List Thing} {sc : Scope} {l : Nat} {es : List (Obj × Obj)} {k v : Obj} (hs : st[l]? = some (.tab es)) (hk : isKey k = true)
    (hh : (sameKind k k && es.all (fun e => sameKind k e.1)) = true) (hv : v ≠ .nil ∧ ∀ f, v ≠ .clo f) :
    tabPut (.tab l) k v ⟨g, st, sc⟩ = .ok () ⟨g, st.set l (.tab (es.filter (fun e => e.1 ≠ k) ++ [(k, v)])), sc⟩ := by
  rw [tabPut_eq hs hk hh]
  cases v with
  | nil => exact absurd rfl hv.1
  | clo f => exact absurd rfl (hv.2 f)
  | _ => rfl

theorem str_kinds {k : Bytes} {es : List (Obj × Obj)} (h : (es.all fun e => sameKind (.str 0 []) e.1) = true) : (sameKind (.str 0 k) (.str 0 k) && es.all (fun e => sameKind (.str 0 k) e.1)) = true := by
  rw [sameKind_str, h]
  rfl

theorem get_tab {g : List (Bytes × Obj)} {st : List Thing} {sc : Scope} {l : Nat} {es : List (Obj × Obj)} {k : Obj} (hs : st[l]? = some (.tab es))
    (hh : (sameKind k k && es.all (fun e => sameKind k e.1)) = true) : tabGet (.tab l) k ⟨g, st, sc⟩ = .ok ((entryOf k es).getD .nil) ⟨g, st, sc⟩ := by
  refine (bind_eq (look_some (s := ⟨g, st, sc⟩) hs)).trans ?_
  simp only
  rw [if_pos hh]
  rfl

theorem Sees.ints {st : List Thing} {l : Nat} {rs : List Reading} {es ps : List (Obj × Obj)} {p : Nat} (h : Sees st l rs es p ps) (i : Int) :
    (sameKind (.int i) (.int i) && ps.all (fun e => sameKind (.int i) e.1)) = true := by
  rw [Bool.and_eq_true]
  refine ⟨rfl, List.all_eq_true.mpr fun e he => ?_⟩
  obtain ⟨r, _, hr⟩ := (h.mem e.1).mp (List.mem_map_of_mem he)
  rw [hr]
  rfl

theorem Stays.refl (st : List Thing) : Stays st st := fun _ _ _ h => h

theorem Stays.trans {a b c : List Thing} (h1 : Stays a b) (h2 : Stays b c) : Stays a c := fun i t ht h => h2 i t ht (h1 i t ht h)

theorem Stays.push {st : List Thing} (u : Thing) : Stays st (st ++ [u]) := fun i t _ h => by
  rw [List.getElem?_append_left (List.getElem?_eq_some_iff.mp h).1, h]

theorem Stays.set {st : List Thing} {l : Nat} {es : List (Obj × Obj)} (hl : st[l]? = some (.tab es)) (u : Thing) : Stays st (st.set l u) := fun i t ht h => by
  rw [List.getElem?_set_ne ?_, h]
  rintro rfl
  rw [hl] at h
  exact ht _ (Option.some.inj h).symm

theorem SameRest.trans {l : Nat} {a b c : List Thing} (h1 : SameRest l a b) (h2 : SameRest l b c) : SameRest l a c := by
  intro es he
  obtain ⟨es1, e1, f1⟩ := h1 es he
  obtain ⟨es2, e2, f2⟩ := h2 es1 e1
  exact ⟨es2, e2, fun k hk => (f2 k hk).trans (f1 k hk)⟩

theorem SameRest.same {l : Nat} {a b : List Thing} (h : ∀ t, a[l]? = some t → b[l]? = some t) : SameRest l a b := fun es he => ⟨es, h _ he, fun _ _ => rfl⟩

/-- Forgetting the neighbors. -/
theorem reset_sees {g : List (Bytes × Obj)} {st : List Thing} {l : Nat} {es : List (Obj × Obj)} (hg : valueOf (ascii "neighbors") g = some (.tab l)) (ht : st[l]? = some (.tab es))
    (hk : (es.all fun e => sameKind (.str 0 []) e.1) = true) :
    ∃ st' es' p ps, nbrReset ⟨g, st, .top⟩ = .ok () ⟨g, st', .top⟩ ∧ Sees st' l [] es' p ps ∧ Stays st st' ∧ SameRest l st st' := by
  have hlt : l < st.length := (List.getElem?_eq_some_iff.mp ht).1
  have ht' : (st ++ [Thing.tab []])[l]? = some (.tab es) := by rw [List.getElem?_append_left hlt, ht]
  have e1 : nbrTable ⟨g, st, .top⟩ = .ok (.tab l) ⟨g, st, .top⟩ := by
    unfold nbrTable globalVal
    rw [hg]
    rfl
  have e2 : alloc (.tab []) ⟨g, st, .top⟩ = .ok st.length ⟨g, st ++ [.tab []], .top⟩ := rfl
  have e3 := put_tab (g := g) (sc := .top) (k := .str 0 (ascii "poses")) (v := .tab st.length) ht' rfl (str_kinds hk) ⟨by simp, by simp⟩
  have hln : l < (st ++ [Thing.tab []]).length := by simp; omega
  refine ⟨_, es.filter (fun e => e.1 ≠ Obj.str 0 (ascii "poses")) ++ [(Obj.str 0 (ascii "poses"), Obj.tab st.length)], st.length, [], ?_, ⟨List.getElem?_set_self hln, ?_, ?_, by omega, ?_, by simp, by simp, fun i => ?_⟩, ?_, ?_⟩
  · unfold nbrReset
    rw [bind_eq e1, bind_eq e2]
    exact e3
  · rw [List.all_append, Bool.and_eq_true]
    refine ⟨?_, rfl⟩
    rw [List.all_eq_true] at hk ⊢
    exact fun e he => hk e (List.mem_of_mem_filter he)
  · rw [entryOf_snoc, entryOf_gone]
    simp
  · rw [List.getElem?_set_ne (by omega), List.getElem?_append_right (le_refl _)]
    simp
  · show entryOf (.int i) [] = none
    rfl
  · exact (Stays.push _).trans (Stays.set ht' _)
  · intro es0 h0
    rw [ht] at h0
    cases h0
    refine ⟨_, List.getElem?_set_self hln, fun k hk => ?_⟩
    rw [entryOf_snoc, entryOf_filter (by intro h; injection h with _ h; exact hk h)]
    cases entryOf (.str 0 k) es with
    | some v => rfl
    | none => simp only; rw [if_neg]; intro h; injection h with _ h; exact hk h.symm

theorem lastOf_snoc (i : Int) (rs : List Reading) (r : Reading) : lastOf i (rs ++ [r]) = if (r.id : Int) = i then some r else lastOf i rs := by
  unfold lastOf
  rw [List.filter_append]
  by_cases h : (r.id : Int) = i
  · rw [if_pos h, List.filter_cons_of_pos (by simp [h])]
    simp
  · rw [if_neg h, List.filter_cons_of_neg (by simp [h])]
    simp

theorem entry_ok {g : List (Bytes × Obj)} {st : List Thing} {p : Nat} {ps : List (Obj × Obj)} (r : Reading) (hp : st[p]? = some (.tab ps))
    (hi : (sameKind (.int (r.id : Int)) (.int (r.id : Int)) && ps.all (fun e => sameKind (.int (r.id : Int)) e.1)) = true) :
    nbrEntry (.tab p) r.id r.d r.a r.e ⟨g, st, .top⟩ =
      .ok () ⟨g, (st ++ [Thing.tab (poseOf r)]).set p (Thing.tab (ps.filter (fun e => e.1 ≠ Obj.int (r.id : Int)) ++ [(Obj.int (r.id : Int), Obj.tab st.length)])), .top⟩ := by
  have hlt : p < st.length := (List.getElem?_eq_some_iff.mp hp).1
  have key : ∀ (es : List (Obj × Obj)) (k : Bytes) (w : Nat), (es.all fun e => sameKind (.str 0 []) e.1) = true → (∀ e ∈ es, e.1 ≠ .str 0 k) →
      tabPut (.tab st.length) (.str 0 k) (.flt (ofBits w)) ⟨g, st ++ [.tab es], .top⟩ = .ok () ⟨g, st ++ [.tab (es ++ [(.str 0 k, .flt (ofBits w))])], .top⟩ := by
    intro es k w h1 h2
    rw [put_tab (es := es) (by simp) rfl (str_kinds h1) ⟨by simp, by simp⟩, List.filter_eq_self.mpr (fun e he => by simpa using h2 e he)]
    simp
  have n1 : ascii "distance" ≠ ascii "azimuth" := by decide
  have n2 : ascii "distance" ≠ ascii "elevation" := by decide
  have n3 : ascii "azimuth" ≠ ascii "elevation" := by decide
  unfold nbrEntry
  rw [bind_eq (show alloc (.tab []) ⟨g, st, .top⟩ = .ok st.length ⟨g, st ++ [.tab []], .top⟩ from rfl)]
  rw [bind_eq (key [] (ascii "distance") r.d rfl (by simp))]
  rw [bind_eq (key _ (ascii "azimuth") r.a rfl (by simpa using n1))]
  rw [bind_eq (key _ (ascii "elevation") r.e rfl (by simpa using ⟨n2, n3⟩))]
  exact put_tab (by rw [List.getElem?_append_left hlt, hp]) rfl hi ⟨by simp, by simp⟩

theorem mem_keys_put {k k' : Obj} {v : Obj} {ps : List (Obj × Obj)} : k' ∈ (ps.filter (fun e => e.1 ≠ k) ++ [(k, v)]).map (·.1) ↔ k' ∈ ps.map (·.1) ∨ k' = k := by
  simp only [List.map_append, List.mem_append, List.mem_map, List.mem_filter, List.map_cons, List.map_nil, List.mem_singleton, decide_eq_true_eq]
  constructor
  · rintro (⟨e, ⟨h1, h2⟩, rfl⟩ | h)
    · exact Or.inl ⟨e, h1, rfl⟩
    · exact Or.inr h
  · rintro (⟨e, h1, rfl⟩ | h)
    · by_cases he : e.1 = k
      · exact Or.inr he
      · exact Or.inl ⟨e, ⟨h1, by simpa using he⟩, rfl⟩
    · exact Or.inr h

theorem nodup_put {k v : Obj} {ps : List (Obj × Obj)} (h : (ps.map (·.1)).Nodup) : ((ps.filter (fun e => e.1 ≠ k) ++ [(k, v)]).map (·.1)).Nodup := by
  rw [List.map_append, List.nodup_append]
  refine ⟨List.Nodup.sublist (List.Sublist.map _ List.filter_sublist) h, by simp, ?_⟩
  intro a ha b hb
  obtain ⟨e, he, rfl⟩ := List.mem_map.mp ha
  rw [List.map_cons, List.map_nil, List.mem_singleton] at hb
  rw [hb]
  simpa using (List.mem_filter.mp he).2

/-- A reading is added. -/
theorem add_sees {g : List (Bytes × Obj)} {st : List Thing} {l p : Nat} {rs : List Reading} {es ps : List (Obj × Obj)} (hg : valueOf (ascii "neighbors") g = some (.tab l))
    (h : Sees st l rs es p ps) (r : Reading) :
    ∃ st' es' p' ps', nbrAdd r.id r.d r.a r.e ⟨g, st, .top⟩ = .ok () ⟨g, st', .top⟩ ∧ Sees st' l (rs ++ [r]) es' p' ps' ∧ Stays st st' ∧ SameRest l st st' := by
  have hlt : p < st.length := (List.getElem?_eq_some_iff.mp h.data).1
  have hll : l < st.length := (List.getElem?_eq_some_iff.mp h.tab).1
  have e1 : nbrTable ⟨g, st, .top⟩ = .ok (.tab l) ⟨g, st, .top⟩ := by
    unfold nbrTable globalVal
    rw [hg]
    rfl
  have e2 : nbrData (.tab l) ⟨g, st, .top⟩ = .ok (.tab p) ⟨g, st, .top⟩ := by
    unfold nbrData
    rw [bind_eq (get_tab h.tab (str_kinds h.keys)), h.poses]
    rfl
  have hp' : (st ++ [Thing.tab (poseOf r)])[p]? = some (.tab ps) := by rw [List.getElem?_append_left hlt, h.data]
  have hln : p < (st ++ [Thing.tab (poseOf r)]).length := by simp; omega
  have stay : ∀ (i : Nat) (u t : Thing), i ≠ p → st[i]? = some t → ((st ++ [Thing.tab (poseOf r)]).set p u)[i]? = some t := by
    intro i u t hi ht
    rw [List.getElem?_set_ne (Ne.symm hi), List.getElem?_append_left (List.getElem?_eq_some_iff.mp ht).1, ht]
  refine ⟨_, es, p, ps.filter (fun e => e.1 ≠ Obj.int (r.id : Int)) ++ [(Obj.int (r.id : Int), Obj.tab st.length)], ?_, ⟨stay _ _ _ (Ne.symm h.ne) h.tab, h.keys, h.poses, h.ne, List.getElem?_set_self hln, nodup_put h.nodup, fun k => ?_, fun i => ?_⟩, ?_, ?_⟩
  · unfold nbrAdd
    rw [bind_eq e1, bind_eq e2]
    exact entry_ok r h.data (h.ints _)
  · rw [mem_keys_put, h.mem]
    constructor
    · rintro (⟨x, h1, h2⟩ | h1)
      · exact ⟨x, List.mem_append_left _ h1, h2⟩
      · exact ⟨r, by simp, h1⟩
    · rintro ⟨x, h1, h2⟩
      rcases List.mem_append.mp h1 with h1 | h1
      · exact Or.inl ⟨x, h1, h2⟩
      · rw [List.mem_singleton] at h1
        subst h1
        exact Or.inr h2
  · rw [lastOf_snoc]
    by_cases hi : (r.id : Int) = i
    · rw [if_pos hi, hi]
      refine ⟨st.length, ?_, by omega, by omega, ?_⟩
      · rw [entryOf_snoc, entryOf_gone]
        simp
      · rw [List.getElem?_set_ne (by omega), List.getElem?_append_right (le_refl _)]
        simp
    · rw [if_neg hi]
      have hne : Obj.int i ≠ .int (r.id : Int) := by intro he; injection he with he; exact hi he.symm
      have := h.last i
      have hent : entryOf (.int i) (ps.filter (fun e => e.1 ≠ Obj.int (r.id : Int)) ++ [(Obj.int (r.id : Int), Obj.tab st.length)]) = entryOf (.int i) ps := by
        rw [entryOf_snoc, entryOf_filter hne]
        cases entryOf (.int i) ps with
        | some v => rfl
        | none => simp only; rw [if_neg (Ne.symm hne)]
      rw [hent]
      cases hl : lastOf i rs with
      | none => rw [hl] at this; exact this
      | some r' =>
        rw [hl] at this
        obtain ⟨m, m1, m2, m3, m4⟩ := this
        exact ⟨m, m1, m2, m3, stay _ _ _ m3 m4⟩
  · exact (Stays.push _).trans (Stays.set hp' _)
  · exact SameRest.same fun t ht => stay _ _ _ (Ne.symm h.ne) ht

/-- Readings are added one after the other. -/
theorem adds_see {id : Obj} {g : List (Bytes × Obj)} {l : Nat} (hg : valueOf (ascii "neighbors") g = some (.tab l)) : ∀ (rs rs0 : List Reading) {st : List Thing} {es : List (Obj × Obj)} {p : Nat}
    {ps : List (Obj × Obj)} {R : Regs}, Sees st l rs0 es p ps →
    ∃ st' es' p' ps', regs id (rs.map fun r => Cmd.addNbr r.id r.d r.a r.e) { R with t := none } ⟨g, st, .top⟩ = .ok { R with t := none } ⟨g, st', .top⟩ ∧ Sees st' l (rs0 ++ rs) es' p' ps' ∧
      Stays st st' ∧ SameRest l st st'
  | [], rs0, st, es, p, ps, R, h => ⟨st, es, p, ps, rfl, by rw [List.append_nil]; exact h, Stays.refl _, SameRest.same fun _ h => h⟩
  | r :: rs, rs0, st, es, p, ps, R, h => by
    obtain ⟨st1, es1, p1, ps1, e1, h1, k1, f1⟩ := add_sees hg h r
    obtain ⟨st2, es2, p2, ps2, e2, h2, k2, f2⟩ := adds_see (id := id) hg rs (rs0 ++ [r]) (R := R) h1
    refine ⟨st2, es2, p2, ps2, ?_, by rw [List.append_assoc] at h2; exact h2, k1.trans k2, f1.trans f2⟩
    have e0 : reg id (.addNbr r.id r.d r.a r.e) { R with t := none } ⟨g, st, .top⟩ = .ok { R with t := none } ⟨g, st1, .top⟩ := by
      show (nbrAdd r.id r.d r.a r.e >>= _) _ = _
      rw [bind_eq e1]
      rfl
    show (reg id (.addNbr r.id r.d r.a r.e) { R with t := none } >>= _) _ = _
    rw [bind_eq e0]
    exact e2

/-- The readings of a round. -/
theorem senses_see {id : Obj} {g : List (Bytes × Obj)} {st : List Thing} {l nf : Nat} {es : List (Obj × Obj)} (hg : valueOf (ascii "neighbors") g = some (.tab l)) (ht : st[l]? = some (.tab es))
    (hk : (es.all fun e => sameKind (.str 0 []) e.1) = true) (rs : List Reading) :
    ∃ st' es' p ps, regs id (senses rs) ⟨none, [], nf, none⟩ ⟨g, st, .top⟩ = .ok ⟨none, [], nf, none⟩ ⟨g, st', .top⟩ ∧ Sees st' l rs es' p ps ∧ Stays st st' ∧ SameRest l st st' := by
  obtain ⟨st1, es1, p1, ps1, e1, h1, k1, f1⟩ := reset_sees hg ht hk
  obtain ⟨st2, es2, p2, ps2, e2, h2, k2, f2⟩ := adds_see (id := id) hg rs [] (R := ⟨none, [], nf, none⟩) h1
  refine ⟨st2, es2, p2, ps2, ?_, h2, k1.trans k2, f1.trans f2⟩
  have e0 : reg id .resetNbrs ⟨none, [], nf, none⟩ ⟨g, st, .top⟩ = .ok ⟨none, [], nf, none⟩ ⟨g, st1, .top⟩ := by
    show (nbrReset >>= _) _ = _
    rw [bind_eq e1]
    rfl
  show (reg id .resetNbrs _ >>= _) _ = _
  rw [bind_eq e0]
  exact e2

/-! ### What the functions of the library answer -/

theorem Sees.length {st : List Thing} {l : Nat} {rs : List Reading} {es ps : List (Obj × Obj)} {p : Nat} (h : Sees st l rs es p ps) : ps.length = (rs.map (·.id)).dedup.length := by
  have hp : (ps.map (·.1)).Perm ((rs.map (fun r => r.id)).dedup.map fun i : Nat => Obj.int (i : Int)) := by
    refine (List.perm_ext_iff_of_nodup h.nodup ?_).mpr fun k => ?_
    · refine (List.nodup_dedup _).map fun a b hab => ?_
      injection hab with hab
      exact Int.ofNat.inj hab
    · rw [h.mem]
      simp only [List.mem_map, List.mem_dedup]
      constructor
      · rintro ⟨r, h1, h2⟩
        exact ⟨r.id, ⟨r, h1, rfl⟩, h2.symm⟩
      · rintro ⟨_, ⟨r, h1, rfl⟩, h2⟩
        exact ⟨r, h1, h2.symm⟩
  have := hp.length_eq
  rw [List.length_map, List.length_map] at this
  exact this

theorem Sees.count {st : List Thing} {l : Nat} {rs : List Reading} {es ps : List (Obj × Obj)} {p : Nat} (h : Sees st l rs es p ps) (hlt : (rs.map (·.id)).dedup.length < 2147483648)
    (g : List (Bytes × Obj)) (sc : Scope) : stdLib 7 [.tab l] ⟨g, st, sc⟩ = .ok (.int ((rs.map (·.id)).dedup.length : Int)) ⟨g, st, sc⟩ := by
  show nbrCount (.tab l) [] _ = _
  refine (bind_eq (get_tab h.tab (str_kinds h.keys))).trans ?_
  rw [h.poses]
  show libSize (.tab p) _ = _
  refine (bind_eq (look_some (s := ⟨g, st, sc⟩) h.data)).trans ?_
  simp only
  rw [h.length, if_pos hlt]
  rfl

theorem Sees.get {st : List Thing} {l : Nat} {rs : List Reading} {es ps : List (Obj × Obj)} {p : Nat} (h : Sees st l rs es p ps) (i : Int) (g : List (Bytes × Obj)) (sc : Scope) :
    match (generalizing := false) lastOf i rs with
    | none => stdLib 0 [.tab l, .int i] ⟨g, st, sc⟩ = .ok .nil ⟨g, st, sc⟩
    | some r => ∃ m, stdLib 0 [.tab l, .int i] ⟨g, st, sc⟩ = .ok (.tab m) ⟨g, st, sc⟩ ∧ st[m]? = some (.tab (poseOf r)) := by
  have e : stdLib 0 [.tab l, .int i] ⟨g, st, sc⟩ = .ok ((entryOf (.int i) ps).getD .nil) ⟨g, st, sc⟩ := by
    show nbrGet (.tab l) [.int i] _ = _
    refine (bind_eq (get_tab h.tab (str_kinds h.keys))).trans ?_
    rw [h.poses]
    exact get_tab h.data (h.ints i)
  have := h.last i
  cases hl : lastOf i rs with
  | none =>
    rw [hl] at this
    simp only at this ⊢
    rw [e, this]
    rfl
  | some r =>
    rw [hl] at this
    obtain ⟨m, m1, _, _, m4⟩ := this
    exact ⟨m, by rw [e, m1]; rfl, m4⟩

/-- What a robot's table of readings has in its fields. -/
theorem get_pose {g : List (Bytes × Obj)} {st : List Thing} {sc : Scope} {m : Nat} {r : Reading} (h : st[m]? = some (.tab (poseOf r))) :
    tabGet (.tab m) (.str 0 (ascii "distance")) ⟨g, st, sc⟩ = .ok (.flt (ofBits r.d)) ⟨g, st, sc⟩ ∧
    tabGet (.tab m) (.str 0 (ascii "azimuth")) ⟨g, st, sc⟩ = .ok (.flt (ofBits r.a)) ⟨g, st, sc⟩ ∧
    tabGet (.tab m) (.str 0 (ascii "elevation")) ⟨g, st, sc⟩ = .ok (.flt (ofBits r.e)) ⟨g, st, sc⟩ := by
  refine ⟨?_, ?_, ?_⟩ <;> rw [get_tab h rfl] <;> rfl

end Buzz.Lang
