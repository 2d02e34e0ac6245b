import Verif.Stig
import Verif.HofSim
import Verif.NbrMake

/-
`foreach` of a virtual stigmergy (src/buzz/buzzvstig.c) as a C function of the machine, with real calls of closures.  `F` and `m` are as in
`Verif/HofRun.lean`.
-/
namespace Buzz.VM

open Buzz.F32 Buzz.Msg Buzz.Heap

/-- An entry of a stigmergy: content of the key and the element. -/
abbrev StigEntry := Obj × VElem

/-- `(*vs)->data`.  A callback may create the stigmergy again, which frees the dictionary in use.  Simplification: this is noticed only when the new one
has no entries where the loop is. -/
def stigAt (vm : VM) (id : Nat) : Res (Table.Tbl VElem) :=
  match FMap.get vm.other.vstigs id with
  | some st => pure st.data
  | none => .ub

/-- The inner loop of `buzzdict_foreach` (buzzdict.c 172-175), from position `j`; the bucket is read again in each iteration. -/
def stigBucketLoop (body : StigEntry → VM → Res VM) (id i : Nat) : Nat → Nat → VM → Res VM
  | 0, _, _ => .hang
  | m + 1, j, vm => do
    let t ← stigAt vm id
    match t.buckets[i]? with
    | some (some es) =>
      match es[j]? with
      | some e => do
        let vm ← body e vm
        stigBucketLoop body id i m (j + 1) vm
      | none => pure vm
    | _ => .ub

/-- The outer loop of `buzzdict_foreach` (buzzdict.c 168-177) over the given buckets. -/
def stigTableLoop (body : StigEntry → VM → Res VM) (id m : Nat) : List Nat → VM → Res VM
  | [], vm => pure vm
  | i :: is, vm => do
    let t ← stigAt vm id
    match t.buckets[i]? with
    | some (some _) => do
      let vm ← stigBucketLoop body id i m 0 vm
      stigTableLoop body id m is vm
    | some none => stigTableLoop body id m is vm
    | none => .ub

/-- `buzzdict_foreach` (buzzdict.c 163-178) on the data of a stigmergy. -/
def stigDictForeach (body : StigEntry → VM → Res VM) (id m : Nat) (vm : VM) : Res VM := do
  let t ← stigAt vm id
  stigTableLoop body id m (List.range t.buckets.length) vm

/-- `buzzvstig_foreach_entry` (buzzvstig.c 249-260): the result of the call stays on the stack. -/
def stigEach (E : Env) (F : CFuns) (m ca : Nat) (e : StigEntry) (vm : VM) : Res VM :=
  if vm.state ≠ .ready then pure vm
  else closureCall E F m 3 (pushInt (pushAddr (pushAddr (pushAddr vm ca) e.2.key) e.2.data) e.2.robot)

/-- `buzzvstig_foreach` (buzzvstig.c 262-281). -/
def stigForeach (E : Env) (F : CFuns) (m : Nat) (vm : VM) : Res VM := do
  let n ← lnum vm
  if n ≠ 1 then pure (setErr vm .lnum)
  else do
    let r ← stigId E vm
    match FMap.get r.1.other.vstigs r.2 with
    | none => ret0 r.1
    | some _ => do
      let vm ← lload r.1 1
      let c ← peekCell vm 1
      match c with
      | .clo _ _ _ => do
        let ca ← peekAddr vm 1
        let vm ← stigDictForeach (stigEach E F m ca) r.2 m vm
        ret0 vm
      | _ => pure (setErr vm .type)

/-- All stigmergy functions among the C functions of a machine; `k` bounds how deep `foreach` is nested through callbacks. -/
def stigAllFuns (E : Env) (me base m : Nat) (other : CFuns) : Nat → CFuns
  | 0 => stigFuns E me base other
  | k + 1 => fun n vm => if n = base then stigForeach E (stigAllFuns E me base m other k) m vm else stigFuns E me base other n vm

/-! ### The entries are visited one after the other -/

section
variable {body : StigEntry → VM → Res VM} {ta : Nat}

theorem stigBucketLoop_skip (hskip : ∀ e u, u.state ≠ .ready → body e u = .ok u) {i : Nat} : ∀ (m j : Nat) (u w : VM), u.state ≠ .ready → stigBucketLoop body ta i m j u = .ok w → w = u
  | 0, _, _, _, _, h => by cases h
  | m + 1, j, u, w, hu, h => by
    unfold stigBucketLoop at h
    obtain ⟨t, _, h⟩ := Res.bind_eq_ok.mp h
    split at h
    · split at h
      · rw [hskip _ _ hu, Res.ok_bind] at h
        exact stigBucketLoop_skip hskip m _ u w hu h
      · cases h; rfl
    · cases h

theorem stigTableLoop_skip (hskip : ∀ e u, u.state ≠ .ready → body e u = .ok u) {m : Nat} : ∀ (is : List Nat) (u w : VM), u.state ≠ .ready → stigTableLoop body ta m is u = .ok w → w = u
  | [], _, _, _, h => by cases h; rfl
  | i :: is, u, w, hu, h => by
    unfold stigTableLoop at h
    obtain ⟨t, _, h⟩ := Res.bind_eq_ok.mp h
    split at h
    · obtain ⟨v, h1, h2⟩ := Res.bind_eq_ok.mp h
      have := stigBucketLoop_skip hskip m 0 u v hu h1
      subst this
      exact stigTableLoop_skip hskip is v w hu h2
    · exact stigTableLoop_skip hskip is u w hu h
    · cases h

variable {t : Table.Tbl VElem} {G : List StigEntry → VM → Prop} {B : List StigEntry → Prop}

/-- The part of a table before a bucket. -/
def stigUpTo (t : Table.Tbl VElem) (i : Nat) : List StigEntry := (t.buckets.take i).flatMap (fun b => b.getD [])

/-- Something happened at one of the entries. -/
def StigBroke (t : Table.Tbl VElem) (B : List StigEntry → Prop) : Prop := ∃ d e r, Dict.entries t = d ++ e :: r ∧ B (d ++ [e])

theorem stigUpTo_succ {i : Nat} {b : Option (List StigEntry)} (h : t.buckets[i]? = some b) : stigUpTo t (i + 1) = stigUpTo t i ++ b.getD [] := by
  unfold stigUpTo
  rw [List.take_add_one, h]
  simp

theorem stigUpTo_entries {i : Nat} {b : Option (List StigEntry)} (h : t.buckets[i]? = some b) : ∃ r, Dict.entries t = stigUpTo t i ++ (b.getD [] ++ r) := by
  refine ⟨(t.buckets.drop (i + 1)).flatMap (fun b => b.getD []), ?_⟩
  rw [← List.append_assoc, ← stigUpTo_succ h]
  unfold stigUpTo Dict.entries
  rw [← List.flatMap_append, List.take_append_drop]

theorem stigBucketLoop_visits (hskip : ∀ e u, u.state ≠ .ready → body e u = .ok u) (hG : ∀ d u, G d u → stigAt u ta = .ok t)
    (hstep : ∀ d e r u v, Dict.entries t = d ++ e :: r → G d u → u.state = .ready → body e u = .ok v → v.state = .ready → G (d ++ [e]) v ∨ B (d ++ [e]))
    {i : Nat} {es : List StigEntry} (hi : t.buckets[i]? = some (some es)) :
    ∀ (m j : Nat) (u w : VM), G (stigUpTo t i ++ es.take j) u → u.state = .ready → stigBucketLoop body ta i m j u = .ok w → w.state = .ready → j ≤ es.length →
      G (stigUpTo t (i + 1)) w ∨ StigBroke t B
  | 0, _, _, _, _, _, h, _, _ => by cases h
  | m + 1, j, u, w, g, hu, h, hw, hj => by
    unfold stigBucketLoop at h
    rw [hG _ _ g, Res.ok_bind, hi] at h
    simp only at h
    cases he : es[j]? with
    | none =>
      rw [he] at h
      cases h
      have : es.length ≤ j := List.getElem?_eq_none_iff.mp he
      rw [List.take_of_length_le this] at g
      rw [stigUpTo_succ hi]
      exact .inl g
    | some e =>
      rw [he] at h
      obtain ⟨v, h1, h2⟩ := Res.bind_eq_ok.mp h
      have hlt := (List.getElem?_eq_some_iff.mp he).1
      obtain ⟨r, hr⟩ := stigUpTo_entries hi
      have hd : Dict.entries t = (stigUpTo t i ++ es.take j) ++ e :: (es.drop (j + 1) ++ r) := by
        rw [hr]
        simp only [Option.getD_some, List.append_assoc]
        congr 1
        have e1 : es = es.take j ++ e :: es.drop (j + 1) := by
          rw [← (List.getElem?_eq_some_iff.mp he).2, List.getElem_cons_drop, List.take_append_drop]
        conv_lhs => rw [e1]
        simp
      by_cases hv : v.state = .ready
      · rcases hstep _ e _ u v hd g hu h1 hv with g' | b
        · refine stigBucketLoop_visits hskip hG hstep hi m (j + 1) v w ?_ hv h2 hw hlt
          rw [List.take_add_one, he, ← List.append_assoc]
          exact g'
        · exact .inr ⟨_, e, _, hd, b⟩
      · have := stigBucketLoop_skip hskip m _ v w hv h2
        subst this
        exact absurd hw hv

theorem stigTableLoop_visits (hskip : ∀ e u, u.state ≠ .ready → body e u = .ok u) (hG : ∀ d u, G d u → stigAt u ta = .ok t)
    (hstep : ∀ d e r u v, Dict.entries t = d ++ e :: r → G d u → u.state = .ready → body e u = .ok v → v.state = .ready → G (d ++ [e]) v ∨ B (d ++ [e])) {m : Nat} :
    ∀ (k i : Nat) (u w : VM), i + k = t.buckets.length → G (stigUpTo t i) u → u.state = .ready → stigTableLoop body ta m (List.range' i k) u = .ok w → w.state = .ready →
      G (Dict.entries t) w ∨ StigBroke t B
  | 0, i, u, w, hk, g, hu, h, hw => by
    cases h
    have : stigUpTo t i = Dict.entries t := by
      unfold stigUpTo Dict.entries
      rw [List.take_of_length_le (by omega)]
    rw [← this]
    exact .inl g
  | k + 1, i, u, w, hk, g, hu, h, hw => by
    rw [List.range'_succ] at h
    unfold stigTableLoop at h
    rw [hG _ _ g, Res.ok_bind] at h
    split at h
    · rename_i es hi
      obtain ⟨v, h1, h2⟩ := Res.bind_eq_ok.mp h
      by_cases hv : v.state = .ready
      · rcases stigBucketLoop_visits hskip hG hstep hi m 0 u v (by simpa using g) hu h1 hv (Nat.zero_le _) with g' | b
        · exact stigTableLoop_visits hskip hG hstep k (i + 1) v w (by omega) g' hv h2 hw
        · exact .inr b
      · have := stigTableLoop_skip hskip _ v w hv h2
        subst this
        exact absurd hw hv
    · rename_i hi
      refine stigTableLoop_visits hskip hG hstep k (i + 1) u w (by omega) ?_ hu h hw
      rw [stigUpTo_succ hi]
      simpa using g
    · cases h

/-- `buzzdict_foreach` visits the entries of a table one after the other, until a callback does something else. -/
theorem stigDictForeach_visits (hskip : ∀ e u, u.state ≠ .ready → body e u = .ok u) (hG : ∀ d u, G d u → stigAt u ta = .ok t)
    (hstep : ∀ d e r u v, Dict.entries t = d ++ e :: r → G d u → u.state = .ready → body e u = .ok v → v.state = .ready → G (d ++ [e]) v ∨ B (d ++ [e])) {m : Nat} {u w : VM}
    (g : G [] u) (hu : u.state = .ready) (h : stigDictForeach body ta m u = .ok w) (hw : w.state = .ready) : G (Dict.entries t) w ∨ StigBroke t B := by
  unfold stigDictForeach at h
  rw [hG _ _ g, Res.ok_bind, List.range_eq_range'] at h
  exact stigTableLoop_visits hskip hG hstep _ 0 u w (by omega) (by simpa [stigUpTo] using g) hu h hw

/-- The loop ended at an entry with the machine not ready. -/
def StigStopped (t : Table.Tbl VElem) (G : List StigEntry → VM → Prop) (body : StigEntry → VM → Res VM) (w : VM) : Prop :=
  ∃ d e r u, Dict.entries t = d ++ e :: r ∧ G d u ∧ u.state = .ready ∧ body e u = .ok w

theorem stigBucketLoop_stops (hskip : ∀ e u, u.state ≠ .ready → body e u = .ok u) (hG : ∀ d u, G d u → stigAt u ta = .ok t)
    (hstep : ∀ d e r u v, Dict.entries t = d ++ e :: r → G d u → u.state = .ready → body e u = .ok v → v.state = .ready → G (d ++ [e]) v ∨ B (d ++ [e]))
    {i : Nat} {es : List StigEntry} (hi : t.buckets[i]? = some (some es)) :
    ∀ (m j : Nat) (u w : VM), G (stigUpTo t i ++ es.take j) u → u.state = .ready → stigBucketLoop body ta i m j u = .ok w → w.state ≠ .ready → j ≤ es.length →
      StigStopped t G body w ∨ StigBroke t B
  | 0, _, _, _, _, _, h, _, _ => by cases h
  | m + 1, j, u, w, g, hu, h, hw, hj => by
    unfold stigBucketLoop at h
    rw [hG _ _ g, Res.ok_bind, hi] at h
    simp only at h
    cases he : es[j]? with
    | none =>
      rw [he] at h
      cases h
      exact absurd hu hw
    | some e =>
      rw [he] at h
      obtain ⟨v, h1, h2⟩ := Res.bind_eq_ok.mp h
      have hlt := (List.getElem?_eq_some_iff.mp he).1
      obtain ⟨r, hr⟩ := stigUpTo_entries hi
      have hd : Dict.entries t = (stigUpTo t i ++ es.take j) ++ e :: (es.drop (j + 1) ++ r) := by
        rw [hr]
        simp only [Option.getD_some, List.append_assoc]
        congr 1
        have e1 : es = es.take j ++ e :: es.drop (j + 1) := by
          rw [← (List.getElem?_eq_some_iff.mp he).2, List.getElem_cons_drop, List.take_append_drop]
        conv_lhs => rw [e1]
        simp
      by_cases hv : v.state = .ready
      · rcases hstep _ e _ u v hd g hu h1 hv with g' | b
        · refine stigBucketLoop_stops hskip hG hstep hi m (j + 1) v w ?_ hv h2 hw hlt
          rw [List.take_add_one, he, ← List.append_assoc]
          exact g'
        · exact .inr ⟨_, e, _, hd, b⟩
      · have := stigBucketLoop_skip hskip m _ v w hv h2
        subst this
        exact .inl ⟨_, e, _, u, hd, g, hu, h1⟩

theorem stigTableLoop_stops (hskip : ∀ e u, u.state ≠ .ready → body e u = .ok u) (hG : ∀ d u, G d u → stigAt u ta = .ok t)
    (hstep : ∀ d e r u v, Dict.entries t = d ++ e :: r → G d u → u.state = .ready → body e u = .ok v → v.state = .ready → G (d ++ [e]) v ∨ B (d ++ [e])) {m : Nat} :
    ∀ (k i : Nat) (u w : VM), i + k = t.buckets.length → G (stigUpTo t i) u → u.state = .ready → stigTableLoop body ta m (List.range' i k) u = .ok w → w.state ≠ .ready →
      StigStopped t G body w ∨ StigBroke t B
  | 0, i, u, w, hk, g, hu, h, hw => by
    cases h
    exact absurd hu hw
  | k + 1, i, u, w, hk, g, hu, h, hw => by
    rw [List.range'_succ] at h
    unfold stigTableLoop at h
    rw [hG _ _ g, Res.ok_bind] at h
    split at h
    · rename_i es hi
      obtain ⟨v, h1, h2⟩ := Res.bind_eq_ok.mp h
      by_cases hv : v.state = .ready
      · rcases stigBucketLoop_visits hskip hG hstep hi m 0 u v (by simpa using g) hu h1 hv (Nat.zero_le _) with g' | b
        · exact stigTableLoop_stops hskip hG hstep k (i + 1) v w (by omega) g' hv h2 hw
        · exact .inr b
      · have := stigTableLoop_skip hskip _ v w hv h2
        subst this
        exact stigBucketLoop_stops hskip hG hstep hi m 0 u w (by simpa using g) hu h1 hw (Nat.zero_le _)
    · rename_i hi
      refine stigTableLoop_stops hskip hG hstep k (i + 1) u w (by omega) ?_ hu h hw
      rw [stigUpTo_succ hi]
      simpa using g
    · cases h

/-- `buzzdict_foreach` does nothing after a callback has failed. -/
theorem stigDictForeach_stops (hskip : ∀ e u, u.state ≠ .ready → body e u = .ok u) (hG : ∀ d u, G d u → stigAt u ta = .ok t)
    (hstep : ∀ d e r u v, Dict.entries t = d ++ e :: r → G d u → u.state = .ready → body e u = .ok v → v.state = .ready → G (d ++ [e]) v ∨ B (d ++ [e])) {m : Nat} {u w : VM}
    (g : G [] u) (hu : u.state = .ready) (h : stigDictForeach body ta m u = .ok w) (hw : w.state ≠ .ready) : StigStopped t G body w ∨ StigBroke t B := by
  unfold stigDictForeach at h
  rw [hG _ _ g, Res.ok_bind, List.range_eq_range'] at h
  exact stigTableLoop_stops hskip hG hstep _ 0 u w (by omega) (by simpa [stigUpTo] using g) hu h hw

end

end Buzz.VM
