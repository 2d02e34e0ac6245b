import Verif.Boot
import Verif.Props.Asm

/-
What becomes of a program with more than 65535 strings (C41): the count of strings has 16 bits (buzzasm.c 203-210, buzzvm.c 655-668).
-/
namespace Buzz.Props

open Buzz.VM Buzz.Msg Buzz.Asm Buzz.Sim

/-- **A defect** (C41) The assembler writes the count of strings modulo 65536, without an error. -/
theorem C41_count_wraps (T : Tools) {ws t ws' : Bytes} {n : Nat} (h : Spaces ws) (h1 : Decimal t n) (hn : n < 9223372036854775808) (h3 : Spaces ws') {st : A} (hcap : st.buf.length < st.cap) :
    ∃ c, asmLine T (ws ++ 33 :: (t ++ ws') ++ [10]) st = .ok (some { st with buf := st.buf ++ mem16 T.endian (n % 65536), cap := c }) := by
  have hnb : NoBreak (ws ++ 33 :: (t ++ ws')) := h.nobreak.app (.cons (by decide) (h1.nobreak.app h3.nobreak))
  have hcs : cstr (ws ++ 33 :: (t ++ ws') ++ [10]) = ws ++ 33 :: (t ++ ws') ++ [10] := by
    refine cstr_eq fun hx => ?_
    rw [List.mem_append] at hx
    rcases hx with hx | hx
    · exact (hnb 0 hx).1 rfl
    · revert hx; decide
  unfold asmLine
  rw [hcs, List.append_assoc, List.cons_append, List.append_assoc, dropSpaces h (by decide)]
  have dok := decimal_ok h1
  have hr : rtrim (33 :: (t ++ (ws' ++ [10]))) = 33 :: t := by
    refine rtrim_spaces (fun x hx => (digit_plain (dok.2.1 x (List.mem_of_getLast? hx))).1) fun x hx => ?_
    rw [List.mem_append, List.mem_singleton] at hx
    rcases hx with hx | rfl
    · exact h3.space x hx
    · decide
  simp only [show ((33 : UInt8) = 35) = False by decide, show ((33 : UInt8) = 39) = False by decide, if_false, if_true, hr, List.tail_cons]
  rw [strtol64_decimal h1 hn]
  obtain ⟨c, p1, p2⟩ := put_ok hcap (mem16 T.endian (n % 65536))
  rw [p1]
  exact ⟨_, rfl⟩

/-- **A defect** (C41) Bytecode whose count of strings is taken modulo 65536: the machine knows only the first strings, as many as the remainder, and begins to execute at the characters of the next one. -/
theorem C41_too_many (E : Env) (ss : List Bytes) (code : Bytes) (hc : ∀ s ∈ ss, Obj.CStr s) (hd : ss.Nodup) (hl : 65536 ≤ ss.length) :
    ∃ w, load E (mem16 E.endian (ss.length % 65536) ++ (stringBytes ss ++ code)) VM.new = .ok w ∧ w.strings = tableOf (ss.take (ss.length % 65536)) ∧ w.state = .ready ∧
      w.pc = ((2 + (stringBytes (ss.take (ss.length % 65536))).length : Nat) : Int) ∧ w.code.drop w.pc.toNat = stringBytes (ss.drop (ss.length % 65536)) ++ code := by
  have hm : ss.length % 65536 < 65536 := Nat.mod_lt _ (by decide)
  generalize hk : ss.length % 65536 = k at hm ⊢
  have hkl : k ≤ ss.length := by omega
  have hsplit : stringBytes ss = stringBytes (ss.take k) ++ stringBytes (ss.drop k) := by
    unfold stringBytes
    rw [← List.flatMap_append, List.take_append_drop]
  have h1 := rd16_mem16 E.endian (stringBytes ss ++ code) (n := k) (by omega)
  have h2 := loadStrings_ok (code := mem16 E.endian k ++ (stringBytes ss ++ code)) (post := stringBytes (ss.drop k) ++ code) (ss.take k) [] (mem16 E.endian k) (by rw [hsplit]; simp)
    (by simpa using hd.sublist (List.take_sublist _ _)) (fun s hs => hc s (List.mem_of_mem_take hs)) (by rw [List.length_nil, List.length_take]; omega)
  have hl2 : (mem16 E.endian k).length = 2 := by cases E.endian <;> rfl
  rw [List.length_take, Nat.min_eq_left hkl, hl2] at h2
  unfold load
  rw [h1, Res.ok_bind, show VM.new.strings = tableOf [] from rfl, h2, Res.ok_bind]
  refine ⟨_, rfl, by simp, rfl, ?_, ?_⟩
  · simp [hl2]
  · show List.drop (((mem16 E.endian k ++ stringBytes (ss.take k)).length : Int)).toNat _ = _
    rw [Int.toNat_natCast, hsplit, List.append_assoc, ← List.append_assoc, List.drop_left]

/-- There are such lists of strings: `a`, `aa`, `aaa` and so on. -/
example : ∃ ss : List Bytes, (∀ s ∈ ss, Obj.CStr s) ∧ ss.Nodup ∧ ss.length = 65537 ∧ ss.length % 65536 = 1 := by
  refine ⟨(List.range 65537).map fun i => List.replicate (i + 1) 97, ?_, ?_, by rw [List.length_map, List.length_range], by rw [List.length_map, List.length_range]⟩
  · intro s hs b hb
    obtain ⟨i, _, rfl⟩ := List.mem_map.mp hs
    rw [List.eq_of_mem_replicate hb]
    decide
  · refine List.Nodup.map (fun i j h => ?_) List.nodup_range
    have := congrArg List.length h
    simpa using this

/-- The count 65537 is written as 1. -/
example : mem16 .little (65537 % 65536) = [1, 0] := by decide

end Buzz.Props
