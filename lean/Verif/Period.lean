import Verif.Swarm

/-
`buzzvm_process_outmsgs`, src/buzz/buzzvm.c 491-501.
-/
namespace Buzz.Period

open Buzz.OutMsg Buzz.Swarm

variable {B K D : Type}

/-- `SWARM_BROADCAST_PERIOD` (buzzvm.c 21). -/
def period : Nat := 10

/-- `buzzvm_process_outmsgs` (buzzvm.c 491-501) on `vm->swarmbroadcast` (16 bits, never above the period) and on the swarms and output queue. -/
def processOut (c : Nat) (s : St B K D) : Nat × St B K D :=
  let c := if 0 < c then c - 1 else c
  if c = 0 ∧ s.swarms.isEmpty = false then (period, { s with out := appendList s.out s.swarms })
  else (c, s)

/-- `vm->swarmbroadcast` before call `t` (counting from 0) when the calls find the states `xs`; it starts with the period (buzzvm.c 555). -/
def counter (xs : Nat → St B K D) : Nat → Nat
  | 0 => period
  | t + 1 => (processOut (counter xs t) (xs t)).1

/-- The state call `t` leaves behind. -/
def after (xs : Nat → St B K D) (t : Nat) : St B K D := (processOut (counter xs t) (xs t)).2

/-- Call `t` queues a list. -/
def fires (xs : Nat → St B K D) (t : Nat) : Prop := counter xs t ≤ 1 ∧ (xs t).swarms.isEmpty = false

theorem step_fires {xs : Nat → St B K D} {t : Nat} (h : fires xs t) :
    counter xs (t + 1) = 10 ∧ after xs t = { xs t with out := appendList (xs t).out (xs t).swarms } := by
  obtain ⟨h1, h2⟩ := h
  have hc : (if 0 < counter xs t then counter xs t - 1 else counter xs t) = 0 := by split <;> omega
  simp only [counter, after, processOut, hc, h2, period, and_self, if_true]

theorem step_not {xs : Nat → St B K D} {t : Nat} (h : ¬ fires xs t) : counter xs (t + 1) = counter xs t - 1 ∧ after xs t = xs t := by
  have hc : ¬((if 0 < counter xs t then counter xs t - 1 else counter xs t) = 0 ∧ (xs t).swarms.isEmpty = false) := by
    rintro ⟨h1, h2⟩
    refine h ⟨?_, h2⟩
    split at h1 <;> omega
  simp only [counter, after, processOut]
  rw [if_neg hc]
  refine ⟨?_, rfl⟩
  show (if _ then _ else _) = _
  split <;> omega

/-- What the counter counts: the calls since the last list. -/
theorem counter_spec (xs : Nat → St B K D) : ∀ t, ∃ l, l ≤ t ∧ (l = 0 ∨ fires xs (l - 1)) ∧ (∀ j, l ≤ j → j < t → ¬ fires xs j) ∧ counter xs t = 10 - (t - l)
  | 0 => ⟨0, by omega, .inl rfl, by omega, rfl⟩
  | t + 1 => by
    obtain ⟨l, h1, h2, h3, h4⟩ := counter_spec xs t
    by_cases hf : fires xs t
    · exact ⟨t + 1, by omega, .inr hf, by omega, by rw [(step_fires hf).1]; omega⟩
    · refine ⟨l, by omega, h2, fun j hj hjt => ?_, by rw [(step_not hf).1, h4]; omega⟩
      by_cases hjt' : j = t
      · exact hjt' ▸ hf
      · exact h3 j hj (by omega)

end Buzz.Period
