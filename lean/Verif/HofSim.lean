import Verif.HofRun
import Verif.Hof
import Verif.Callback

/-
The loops of `foreach`, `map`, `reduce` and `filter` over a table that the callback may change.
-/
namespace Buzz.VM

open Buzz.F32 Buzz.Msg Buzz.Heap Buzz.Props

theorem tabAt_of {vm : VM} {a : Nat} {t : Table.Tbl (Nat × Nat)} (h : Holds vm.heap a (.tab t)) : tabAt vm a = .ok t := by
  obtain ⟨m, h1, h2⟩ := h
  unfold tabAt deref
  rw [h1]
  simp only [Res.ok_bind, h2]
  rfl

theorem tabAt_holds {vm : VM} {a : Nat} {t : Table.Tbl (Nat × Nat)} (h : tabAt vm a = .ok t) : Holds vm.heap a (.tab t) := by
  unfold tabAt deref at h
  cases h1 : FMap.get vm.heap.objs a with
  | none => rw [h1] at h; cases h
  | some m =>
    rw [h1] at h
    simp only [Res.ok_bind] at h
    cases h2 : m.cell with
    | tab t' => rw [h2] at h; cases h; exact ⟨m, h1, h2⟩
    | atom o => rw [h2] at h; cases h
    | clo n r l => rw [h2] at h; cases h

section
variable {body : Entry3 → VM → Res VM} {ta : Nat}

theorem bucketLoop_skip (hskip : ∀ e u, u.state ≠ .ready → body e u = .ok u) {i : Nat} : ∀ (m j : Nat) (u w : VM), u.state ≠ .ready → bucketLoop body ta i m j u = .ok w → w = u
  | 0, _, _, _, _, h => by cases h
  | m + 1, j, u, w, hu, h => by
    unfold bucketLoop at h
    obtain ⟨t, _, h⟩ := Res.bind_eq_ok.mp h
    split at h
    · split at h
      · rw [hskip _ _ hu, Res.ok_bind] at h
        exact bucketLoop_skip hskip m _ u w hu h
      · cases h; rfl
    · cases h

theorem tableLoop_skip (hskip : ∀ e u, u.state ≠ .ready → body e u = .ok u) {m : Nat} : ∀ (is : List Nat) (u w : VM), u.state ≠ .ready → tableLoop body ta m is u = .ok w → w = u
  | [], _, _, _, h => by cases h; rfl
  | i :: is, u, w, hu, h => by
    unfold tableLoop at h
    obtain ⟨t, _, h⟩ := Res.bind_eq_ok.mp h
    split at h
    · obtain ⟨v, h1, h2⟩ := Res.bind_eq_ok.mp h
      have := bucketLoop_skip hskip m 0 u v hu h1
      subst this
      exact tableLoop_skip hskip is v w hu h2
    · exact tableLoop_skip hskip is u w hu h
    · cases h

variable {t : Table.Tbl (Nat × Nat)} {G : List Entry3 → VM → Prop} {B : List Entry3 → Prop}

/-- The part of a table before a bucket. -/
def upTo (t : Table.Tbl (Nat × Nat)) (i : Nat) : List Entry3 := (t.buckets.take i).flatMap (fun b => b.getD [])

/-- Something happened at one of the entries. -/
def Broke (t : Table.Tbl (Nat × Nat)) (B : List Entry3 → Prop) : Prop := ∃ d e r, Dict.entries t = d ++ e :: r ∧ B (d ++ [e])

theorem upTo_succ {i : Nat} {b : Option (List Entry3)} (h : t.buckets[i]? = some b) : upTo t (i + 1) = upTo t i ++ b.getD [] := by
  unfold upTo
  rw [List.take_add_one, h]
  simp

theorem upTo_entries {i : Nat} {b : Option (List Entry3)} (h : t.buckets[i]? = some b) : ∃ r, Dict.entries t = upTo t i ++ (b.getD [] ++ r) := by
  refine ⟨(t.buckets.drop (i + 1)).flatMap (fun b => b.getD []), ?_⟩
  rw [← List.append_assoc, ← upTo_succ h]
  unfold upTo Dict.entries
  rw [← List.flatMap_append, List.take_append_drop]

theorem bucketLoop_visits (hskip : ∀ e u, u.state ≠ .ready → body e u = .ok u) (hG : ∀ d u, G d u → Holds u.heap ta (.tab t))
    (hstep : ∀ d e r u v, Dict.entries t = d ++ e :: r → G d u → u.state = .ready → body e u = .ok v → v.state = .ready → G (d ++ [e]) v ∨ B (d ++ [e]))
    {i : Nat} {es : List Entry3} (hi : t.buckets[i]? = some (some es)) :
    ∀ (m j : Nat) (u w : VM), G (upTo t i ++ es.take j) u → u.state = .ready → bucketLoop body ta i m j u = .ok w → w.state = .ready → j ≤ es.length →
      G (upTo t (i + 1)) w ∨ Broke t B
  | 0, _, _, _, _, _, h, _, _ => by cases h
  | m + 1, j, u, w, g, hu, h, hw, hj => by
    unfold bucketLoop at h
    rw [tabAt_of (hG _ _ g), Res.ok_bind, hi] at h
    simp only at h
    cases he : es[j]? with
    | none =>
      rw [he] at h
      cases h
      have : es.length ≤ j := List.getElem?_eq_none_iff.mp he
      rw [List.take_of_length_le this] at g
      rw [upTo_succ hi]
      exact .inl g
    | some e =>
      rw [he] at h
      obtain ⟨v, h1, h2⟩ := Res.bind_eq_ok.mp h
      have hlt := (List.getElem?_eq_some_iff.mp he).1
      obtain ⟨r, hr⟩ := upTo_entries hi
      have hd : Dict.entries t = (upTo t i ++ es.take j) ++ e :: (es.drop (j + 1) ++ r) := by
        rw [hr]
        simp only [Option.getD_some, List.append_assoc]
        congr 1
        have e1 : es = es.take j ++ e :: es.drop (j + 1) := by
          rw [← (List.getElem?_eq_some_iff.mp he).2, List.getElem_cons_drop, List.take_append_drop]
        conv_lhs => rw [e1]
        simp
      by_cases hv : v.state = .ready
      · rcases hstep _ e _ u v hd g hu h1 hv with g' | b
        · refine bucketLoop_visits hskip hG hstep hi m (j + 1) v w ?_ hv h2 hw hlt
          rw [List.take_add_one, he, ← List.append_assoc]
          exact g'
        · exact .inr ⟨_, e, _, hd, b⟩
      · have := bucketLoop_skip hskip m _ v w hv h2
        subst this
        exact absurd hw hv

theorem tableLoop_visits (hskip : ∀ e u, u.state ≠ .ready → body e u = .ok u) (hG : ∀ d u, G d u → Holds u.heap ta (.tab t))
    (hstep : ∀ d e r u v, Dict.entries t = d ++ e :: r → G d u → u.state = .ready → body e u = .ok v → v.state = .ready → G (d ++ [e]) v ∨ B (d ++ [e])) {m : Nat} :
    ∀ (k i : Nat) (u w : VM), i + k = t.buckets.length → G (upTo t i) u → u.state = .ready → tableLoop body ta m (List.range' i k) u = .ok w → w.state = .ready →
      G (Dict.entries t) w ∨ Broke t B
  | 0, i, u, w, hk, g, hu, h, hw => by
    cases h
    have : upTo t i = Dict.entries t := by
      unfold upTo Dict.entries
      rw [List.take_of_length_le (by omega)]
    rw [← this]
    exact .inl g
  | k + 1, i, u, w, hk, g, hu, h, hw => by
    rw [List.range'_succ] at h
    unfold tableLoop at h
    rw [tabAt_of (hG _ _ g), Res.ok_bind] at h
    split at h
    · rename_i es hi
      obtain ⟨v, h1, h2⟩ := Res.bind_eq_ok.mp h
      by_cases hv : v.state = .ready
      · rcases bucketLoop_visits hskip hG hstep hi m 0 u v (by simpa using g) hu h1 hv (Nat.zero_le _) with g' | b
        · exact tableLoop_visits hskip hG hstep k (i + 1) v w (by omega) g' hv h2 hw
        · exact .inr b
      · have := tableLoop_skip hskip _ v w hv h2
        subst this
        exact absurd hw hv
    · rename_i hi
      refine tableLoop_visits hskip hG hstep k (i + 1) u w (by omega) ?_ hu h hw
      rw [upTo_succ hi]
      simpa using g
    · cases h

/-- `buzzdict_foreach` visits the entries of a table one after the other, until a callback does something else. -/
theorem dictForeach_visits (hskip : ∀ e u, u.state ≠ .ready → body e u = .ok u) (hG : ∀ d u, G d u → Holds u.heap ta (.tab t))
    (hstep : ∀ d e r u v, Dict.entries t = d ++ e :: r → G d u → u.state = .ready → body e u = .ok v → v.state = .ready → G (d ++ [e]) v ∨ B (d ++ [e])) {m : Nat} {u w : VM}
    (g : G [] u) (hu : u.state = .ready) (h : dictForeach body ta m u = .ok w) (hw : w.state = .ready) : G (Dict.entries t) w ∨ Broke t B := by
  unfold dictForeach at h
  rw [tabAt_of (hG _ _ g), Res.ok_bind, List.range_eq_range'] at h
  exact tableLoop_visits hskip hG hstep _ 0 u w (by omega) (by simpa [upTo] using g) hu h hw

/-- The loop ended at an entry with the machine not ready. -/
def Stopped (t : Table.Tbl (Nat × Nat)) (G : List Entry3 → VM → Prop) (body : Entry3 → VM → Res VM) (w : VM) : Prop :=
  ∃ d e r u, Dict.entries t = d ++ e :: r ∧ G d u ∧ u.state = .ready ∧ body e u = .ok w

theorem bucketLoop_stops (hskip : ∀ e u, u.state ≠ .ready → body e u = .ok u) (hG : ∀ d u, G d u → Holds u.heap ta (.tab t))
    (hstep : ∀ d e r u v, Dict.entries t = d ++ e :: r → G d u → u.state = .ready → body e u = .ok v → v.state = .ready → G (d ++ [e]) v ∨ B (d ++ [e]))
    {i : Nat} {es : List Entry3} (hi : t.buckets[i]? = some (some es)) :
    ∀ (m j : Nat) (u w : VM), G (upTo t i ++ es.take j) u → u.state = .ready → bucketLoop body ta i m j u = .ok w → w.state ≠ .ready → j ≤ es.length →
      Stopped t G body w ∨ Broke t B
  | 0, _, _, _, _, _, h, _, _ => by cases h
  | m + 1, j, u, w, g, hu, h, hw, hj => by
    unfold bucketLoop at h
    rw [tabAt_of (hG _ _ g), Res.ok_bind, hi] at h
    simp only at h
    cases he : es[j]? with
    | none =>
      rw [he] at h
      cases h
      exact absurd hu hw
    | some e =>
      rw [he] at h
      obtain ⟨v, h1, h2⟩ := Res.bind_eq_ok.mp h
      have hlt := (List.getElem?_eq_some_iff.mp he).1
      obtain ⟨r, hr⟩ := upTo_entries hi
      have hd : Dict.entries t = (upTo t i ++ es.take j) ++ e :: (es.drop (j + 1) ++ r) := by
        rw [hr]
        simp only [Option.getD_some, List.append_assoc]
        congr 1
        have e1 : es = es.take j ++ e :: es.drop (j + 1) := by
          rw [← (List.getElem?_eq_some_iff.mp he).2, List.getElem_cons_drop, List.take_append_drop]
        conv_lhs => rw [e1]
        simp
      by_cases hv : v.state = .ready
      · rcases hstep _ e _ u v hd g hu h1 hv with g' | b
        · refine bucketLoop_stops hskip hG hstep hi m (j + 1) v w ?_ hv h2 hw hlt
          rw [List.take_add_one, he, ← List.append_assoc]
          exact g'
        · exact .inr ⟨_, e, _, hd, b⟩
      · have := bucketLoop_skip hskip m _ v w hv h2
        subst this
        exact .inl ⟨_, e, _, u, hd, g, hu, h1⟩

theorem tableLoop_stops (hskip : ∀ e u, u.state ≠ .ready → body e u = .ok u) (hG : ∀ d u, G d u → Holds u.heap ta (.tab t))
    (hstep : ∀ d e r u v, Dict.entries t = d ++ e :: r → G d u → u.state = .ready → body e u = .ok v → v.state = .ready → G (d ++ [e]) v ∨ B (d ++ [e])) {m : Nat} :
    ∀ (k i : Nat) (u w : VM), i + k = t.buckets.length → G (upTo t i) u → u.state = .ready → tableLoop body ta m (List.range' i k) u = .ok w → w.state ≠ .ready →
      Stopped t G body w ∨ Broke t B
  | 0, i, u, w, hk, g, hu, h, hw => by
    cases h
    exact absurd hu hw
  | k + 1, i, u, w, hk, g, hu, h, hw => by
    rw [List.range'_succ] at h
    unfold tableLoop at h
    rw [tabAt_of (hG _ _ g), Res.ok_bind] at h
    split at h
    · rename_i es hi
      obtain ⟨v, h1, h2⟩ := Res.bind_eq_ok.mp h
      by_cases hv : v.state = .ready
      · rcases bucketLoop_visits hskip hG hstep hi m 0 u v (by simpa using g) hu h1 hv (Nat.zero_le _) with g' | b
        · exact tableLoop_stops hskip hG hstep k (i + 1) v w (by omega) g' hv h2 hw
        · exact .inr b
      · have := tableLoop_skip hskip _ v w hv h2
        subst this
        exact bucketLoop_stops hskip hG hstep hi m 0 u w (by simpa using g) hu h1 hw (Nat.zero_le _)
    · rename_i hi
      refine tableLoop_stops hskip hG hstep k (i + 1) u w (by omega) ?_ hu h hw
      rw [upTo_succ hi]
      simpa using g
    · cases h

/-- `buzzdict_foreach` does nothing after a callback has failed. -/
theorem dictForeach_stops (hskip : ∀ e u, u.state ≠ .ready → body e u = .ok u) (hG : ∀ d u, G d u → Holds u.heap ta (.tab t))
    (hstep : ∀ d e r u v, Dict.entries t = d ++ e :: r → G d u → u.state = .ready → body e u = .ok v → v.state = .ready → G (d ++ [e]) v ∨ B (d ++ [e])) {m : Nat} {u w : VM}
    (g : G [] u) (hu : u.state = .ready) (h : dictForeach body ta m u = .ok w) (hw : w.state ≠ .ready) : Stopped t G body w ∨ Broke t B := by
  unfold dictForeach at h
  rw [tabAt_of (hG _ _ g), Res.ok_bind, List.range_eq_range'] at h
  exact tableLoop_stops hskip hG hstep _ 0 u w (by omega) (by simpa [upTo] using g) hu h hw

end

end Buzz.VM
