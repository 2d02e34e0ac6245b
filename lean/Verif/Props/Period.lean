import Verif.Period

/-
C51: how often the list of swarms is sent.
-/
namespace Buzz.Props

open Buzz.OutMsg Buzz.Swarm Buzz.Period

variable {B K D : Type}

/-- `T` are the calls, counted from 0, that queue a list: those at which the robot knows a swarm, at least ten calls after the start and at
least ten calls after the last list.  (This determines `T`.) -/
def TenApart (knows : Nat → Prop) (T : Nat → Prop) : Prop :=
  ∀ t, T t ↔ knows t ∧ 9 ≤ t ∧ ∀ j, j < t → T j → j + 10 ≤ t

theorem TenApart.unique {knows T T' : Nat → Prop} (h : TenApart knows T) (h' : TenApart knows T') (t : Nat) : T t ↔ T' t := by
  induction t using Nat.strong_induction_on with
  | _ t ih =>
    rw [h t, h' t]
    refine and_congr_right (fun _ => and_congr_right (fun _ => ?_))
    exact forall_congr' (fun j => ⟨fun a b c => a b ((ih j b).mpr c), fun a b c => a b ((ih j b).mp c)⟩)

/-- **C51** whatever happens to swarms and queue between the calls of `process_outmsgs`: the calls `T` queue the current list, the others
change nothing. -/
theorem C51_lists (xs : Nat → St B K D) : ∃ T : Nat → Prop, TenApart (fun t => (xs t).swarms ≠ []) T ∧
    ∀ t, (T t → after xs t = { xs t with out := appendList (xs t).out (xs t).swarms }) ∧ (¬ T t → after xs t = xs t) := by
  refine ⟨fires xs, fun t => ?_, fun t => ⟨fun h => (step_fires h).2, fun h => (step_not h).2⟩⟩
  obtain ⟨l, h1, h2, h3, h4⟩ := counter_spec xs t
  have hk : (xs t).swarms.isEmpty = false ↔ (xs t).swarms ≠ [] := by simp
  constructor
  · rintro ⟨f1, f2⟩
    refine ⟨hk.mp f2, by omega, fun j hj hf => ?_⟩
    by_cases hjl : l ≤ j
    · exact absurd hf (h3 j hjl hj)
    · omega
  · rintro ⟨k1, k2, k3⟩
    refine ⟨?_, hk.mpr k1⟩
    rcases h2 with rfl | hl
    · omega
    · by_cases hl0 : l = 0
      · subst hl0; omega
      · have := k3 (l - 1) (by omega) hl
        omega

/-- **C51** a robot that always knows a swarm queues the list at the tenth call, the twentieth, and so on, and at no other. -/
theorem C51_every_ten {knows T : Nat → Prop} (h : TenApart knows T) (hk : ∀ t, knows t) (t : Nat) : T t ↔ (t + 1) % 10 = 0 := by
  induction t using Nat.strong_induction_on with
  | _ t ih =>
    rw [h t]
    constructor
    · rintro ⟨_, h9, hj⟩
      by_contra hc
      have hlt : t - (t + 1) % 10 < t := by omega
      have := hj _ hlt ((ih _ hlt).mpr (by omega))
      omega
    · intro h10
      refine ⟨hk t, by omega, fun j hj hT => ?_⟩
      have := (ih j hj).mp hT
      omega

/-- **C51** a robot that knows no swarm at a call queues nothing at it. -/
theorem C51_never {knows T : Nat → Prop} (h : TenApart knows T) {t : Nat} (hk : ¬ knows t) : ¬ T t := fun hT => hk ((h t).mp hT).1

/-- A robot that creates its first swarm after 30 calls queues its list at the next call and then every ten calls. -/
example : let xs : Nat → St Nat Nat Nat := fun t => if t < 30 then ⟨[], [], new⟩ else ⟨[(5, 1), (6, 0)], [], new⟩
    ((List.range 60).filter (fun t => (after xs t).out.list ≠ [])) = [30, 40, 50] ∧ (after xs 30).out.list = [[5]] := by decide +kernel

end Buzz.Props
