import Verif.Props.Floats

/-
C12 (comparison operators) for operands other than integers: numbers with floats, strings, tables.
-/
namespace Buzz.Props

open Buzz.F32 Buzz.Msg Buzz.Heap Buzz.VM

/-- `a < b` for floats; nothing is less or greater than NaN. -/
def Less : Flt → Flt → Prop
  | .fin a, .fin b => a < b
  | .fin _, .inf n => n = false
  | .inf n, .fin _ => n = true
  | .inf m, .inf n => m = true ∧ n = false
  | _, _ => False

theorem ltF_less (a b : Flt) : Obj.ltF a b = true ↔ Less a b := by
  cases a <;> cases b <;> simp [Obj.ltF, Less]

theorem less_asymm {a b : Flt} (h : Less a b) : ¬ Less b a := by
  cases a <;> cases b <;> simp only [Less, not_lt, not_and, Bool.not_eq_false, Bool.not_eq_true] at h ⊢
  · exact h.le
  · simp [h]
  · simp [h]
  · simp [h]

open Classical in
/-- What the six operators yield when the first operand is less (`l`), greater (`g`), or neither. -/
def Answers (E : Env) (F : CFuns) (vm : VM) (op : Bin) (l g : Prop) : Prop :=
  (op = .lt → Yields E F vm (bit l)) ∧ (op = .gt → Yields E F vm (bit g)) ∧ (op = .eq → Yields E F vm (bit (¬ l ∧ ¬ g))) ∧
  (op = .neq → Yields E F vm (bit (l ∨ g))) ∧ (op = .lte → Yields E F vm (bit ¬ g)) ∧ (op = .gte → Yields E F vm (bit ¬ l))

theorem answers_of {E : Env} {F : CFuns} {vm : VM} {op : Bin} {x y : Obj} {c : Int} {l g : Prop} (w : At1 vm (.bin op)) (hx : Val vm 1 x) (hy : Val vm 0 y)
    (hc : Obj.cmp E.sc x y = .ok c) (h2 : c ≠ 2) (hl : l ↔ c < 0) (hg : g ↔ 0 < c) : Answers E F vm op l g := by
  have key : ∀ p : Int → Bool, cmpV E p x y = some (.ok (ofBool (p c))) := fun p => by
    unfold cmpV
    rw [hc, Res.ok_bind]
    simp [h2]
  refine ⟨?_, ?_, ?_, ?_, ?_, ?_⟩ <;>
  · rintro rfl
    refine step_bin w hx hy ?_
    simp only [binV, key]
    congr 2
    unfold ofBool bit
    congr 1
    simp only [hl, hg, decide_eq_true_eq, gt_iff_lt, ge_iff_le]
    all_goals first | done | (split <;> split <;> first | rfl | omega)

/-- **C12** on two numbers one of which is a float; an integer is converted.  If one is NaN none is less, so that `==` yields 1, other than in the
standard for floats. -/
theorem C12_floats {E : Env} {F : CFuns} {vm : VM} {op : Bin} {x y : Obj} (w : At1 vm (.bin op)) (hx : Val vm 1 x) (hy : Val vm 0 y) (hm : Mixed x y) :
    ∃ a b, AsFloat x a ∧ AsFloat y b ∧ Answers E F vm op (Less a b) (Less b a) := by
  obtain ⟨⟨a, b, ha, hb⟩, _⟩ := mixed_num hm
  have hc : Obj.cmp E.sc x y = .ok (Obj.cmpF a b) := by
    cases x <;> cases y <;> first | exact hm.elim | skip
    all_goals
      simp only [num, Option.some.injEq] at ha hb
      subst ha; subst hb
      rfl
  refine ⟨a, b, num_as ha, num_as hb, answers_of w hx hy hc ?_ ?_ ?_⟩
  · unfold Obj.cmpF; split
    · decide
    · split <;> decide
  · rw [← ltF_less]; unfold Obj.cmpF
    split
    · rename_i h; simp [h]
    · rename_i h; split <;> simp [h]
  · rw [← ltF_less]; unfold Obj.cmpF
    split
    · rename_i h
      have : ¬ Less b a := less_asymm ((ltF_less a b).mp h)
      rw [← ltF_less] at this
      simp [this]
    · split
      · rename_i h; simp [h]
      · rename_i h; simp [h]

/-- **C12**, a consequence: NaN is equal to every float. -/
theorem C12_nan {E : Env} {F : CFuns} {vm : VM} {f : Flt} (w : At1 vm (.bin .eq)) (hx : Val vm 1 (.flt .nan)) (hy : Val vm 0 (.flt f)) : Yields E F vm (.int 1) := by
  obtain ⟨a, b, ha, hb, h⟩ := C12_floats (E := E) (F := F) w hx hy trivial
  cases ha
  have := h.2.2.1 rfl
  rwa [bit, if_pos ⟨by simp [Less], by cases b <;> simp [Less]⟩] at this

/-- **C12** on two strings: as `strcmp`, unless that answers 2 (`C12_strcmp_two`). -/
theorem C12_strings {E : Env} {F : CFuns} {vm : VM} {op : Bin} {s t : Bytes} {i j : Nat} (w : At1 vm (.bin op)) (hx : Val vm 1 (.str i s)) (hy : Val vm 0 (.str j t))
    (h2 : E.sc s t ≠ 2) : Answers E F vm op (E.sc s t < 0) (0 < E.sc s t) := answers_of w hx hy rfl h2 Iff.rfl Iff.rfl

theorem bit_congr {p q : Prop} [ip : Decidable p] [iq : Decidable q] (h : p ↔ q) : bit p = bit q := by
  unfold bit
  simp only [h]

theorem yields_congr {E : Env} {F : CFuns} {vm : VM} {p q : Prop} {ip : Decidable p} {iq : Decidable q} (h : p ↔ q) (k : Yields E F vm (@bit p ip)) : Yields E F vm (@bit q iq) :=
  bit_congr h ▸ k

/-- **C12** on two tables: `==` yields 1 exactly for the same table. -/
theorem C12_tables {E : Env} {F : CFuns} {vm : VM} {op : Bin} {a b : Nat} (w : At1 vm (.bin op)) (hx : Val vm 1 (.tab a)) (hy : Val vm 0 (.tab b)) :
    (op = .eq → Yields E F vm (bit (a = b))) ∧ (op = .neq → Yields E F vm (bit (a ≠ b))) := by
  have hA := answers_of (l := a < b) (g := b < a) (E := E) (F := F) (c := Obj.cmpI a b) w hx hy rfl ?_ ?_ ?_
  · refine ⟨fun h => ?_, fun h => ?_⟩
    · exact yields_congr (by omega) (hA.2.2.1 h)
    · exact yields_congr (by omega) (hA.2.2.2.1 h)
  · unfold Obj.cmpI; split
    · decide
    · split <;> decide
  · unfold Obj.cmpI; split
    · simp; omega
    · split <;> simp <;> omega
  · unfold Obj.cmpI; split
    · simp; omega
    · split <;> simp <;> omega

/-- `0.5 < 1` and NaN compared with 1.0: bits 0x7FC00000. -/
example : result [0, 0, 35, 0, 0, 0, 63, 36, 1, 0, 0, 0, 26, 1] = .ok (some (.int 1), .none) ∧
    result [0, 0, 35, 0, 0, 192, 127, 35, 0, 0, 128, 63, 22, 1] = .ok (some (.int 1), .none) := by decide +kernel

end Buzz.Props
