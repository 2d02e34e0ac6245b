import Verif.Darray
import Mathlib.Tactic.Linarith

/-! Refinement of the raw-buffer array by lists: lemmas. -/
namespace Buzz.Darray

variable {α : Type}

/-- The array `d` is well formed and holds exactly the elements `xs`. -/
structure Rep (d : DA α) (xs : List α) : Prop where
  size_eq : d.size = xs.length
  cap_pos : 1 ≤ d.cap
  le_cap : xs.length ≤ d.cap
  elem_pos : 0 < d.elem
  bytes : d.cap * d.elem < U32
  buf_len : d.buf.length = d.cap
  buf_eq : ∃ rest, d.buf = xs.map some ++ rest

theorem slots_eq {cap elem : Nat} (h : cap * elem < U32) (he : 0 < elem) : slots cap elem = cap := by
  unfold slots
  rw [Nat.mod_eq_of_lt h, Nat.mul_div_cancel _ he]

theorem Rep.cap_lt {d : DA α} {xs : List α} (h : Rep d xs) : d.cap < U32 :=
  lt_of_le_of_lt (Nat.le_mul_of_pos_right _ h.elem_pos) h.bytes

theorem growCap_ok (size : Nat) (hs : 2 * (size + 1) < U32) :
    ∀ (fuel cap : Nat), 1 ≤ cap → cap ≤ size + 1 → size + 1 < cap * 2 ^ fuel →
      ∃ c, growCap size fuel cap = .ok c ∧ size + 1 < c ∧ c ≤ 2 * (size + 1)
  | 0, cap, _, h2, h3 => by simp at h3; omega
  | fuel + 1, cap, h1, h2, h3 => by
    have hm : (cap * 2) % U32 = cap * 2 := Nat.mod_eq_of_lt (by omega)
    unfold growCap
    simp only [hm]
    split
    · rename_i hle
      apply growCap_ok size hs fuel (cap * 2) (by omega) hle
      rw [pow_succ] at h3
      nlinarith [h3]
    · exact ⟨_, rfl, by omega, by omega⟩

theorem realloc_length (buf : List (Option α)) (n : Nat) : (realloc buf n).length = n := by
  simp [realloc]; omega

theorem realloc_prefix (xs : List α) (rest : List (Option α)) (n : Nat) (h : xs.length ≤ n) :
    ∃ rest', realloc (xs.map some ++ rest) n = xs.map some ++ rest' := by
  refine ⟨rest.take (n - xs.length) ++ List.replicate (n - (xs.length + rest.length)) none, ?_⟩
  simp [realloc, List.take_append, List.take_of_length_le, h]

theorem reserve_rep {d : DA α} {xs : List α} (h : Rep d xs)
    (hf : 2 * (xs.length + 1) * d.elem < U32) :
    ∃ d', reserve d = .ok d' ∧ Rep d' xs ∧ xs.length + 1 < d'.cap ∧ d'.elem = d.elem := by
  unfold reserve
  have he := h.elem_pos
  split
  · rename_i hle
    rw [if_neg (by have := h.cap_pos; omega)]
    have hfs : 2 * (d.size + 1) < U32 := by
      rw [h.size_eq]
      exact lt_of_le_of_lt (Nat.le_mul_of_pos_right _ he) hf
    have hb : d.size + 1 < d.cap * 2 ^ 33 := by
      have h1 := h.cap_pos
      have : d.cap * 2^33 ≥ 1 * 2^33 := Nat.mul_le_mul_right _ h1
      have : (2:Nat)^33 = 8589934592 := by norm_num
      simp only [U32] at hfs
      omega
    obtain ⟨c, hc, hlt, hcle⟩ := growCap_ok d.size hfs 33 d.cap h.cap_pos hle hb
    rw [hc]
    refine ⟨_, rfl, ?_, ?_, rfl⟩
    · have hbytes : c * d.elem < U32 := by
        refine lt_of_le_of_lt (Nat.mul_le_mul_right _ hcle) ?_
        rw [h.size_eq]; exact hf
      obtain ⟨rest, hr⟩ := h.buf_eq
      refine ⟨h.size_eq, by simp only; omega, by have := h.size_eq; simp only; omega, he, hbytes, ?_, ?_⟩
      · simp only [realloc_length, slots_eq hbytes he]
      · simp only [hr, slots_eq hbytes he]
        exact realloc_prefix xs rest c (by have := h.size_eq; omega)
    · have := h.size_eq; simp only; omega
  · rename_i hle
    refine ⟨d, rfl, h, ?_, rfl⟩
    have := h.size_eq; omega

theorem insert_step {d d' : DA α} {pos : Nat} {v : α} (h : makeslot d pos = .ok d') :
    insert d pos v = if pos < d'.size then (do let buf ← write d'.buf pos v; pure { d' with buf := buf })
      else insert d' pos v := by
  rw [insert]
  split <;> rename_i h2 <;> rw [h] at h2 <;> cases h2
  rfl

/-- Specification of insertion: the list with `v` at position `i`. -/
def ins (xs : List α) (i : Nat) (v : α) : List α := xs.take i ++ v :: xs.drop i

theorem ins_length (xs : List α) (i : Nat) (v : α) (h : i ≤ xs.length) :
    (ins xs i v).length = xs.length + 1 := by
  simp [ins]; omega

theorem insert_rep {d : DA α} {xs : List α} (h : Rep d xs) {pos : Nat} (hp : pos ≤ xs.length) (v : α)
    (hf : 2 * (xs.length + 1) * d.elem < U32) :
    ∃ d', insert d pos v = .ok d' ∧ Rep d' (ins xs pos v) ∧ d'.elem = d.elem := by
  obtain ⟨d1, hr, h1, hcap, hel⟩ := reserve_rep h hf
  obtain ⟨rest, hbuf⟩ := h1.buf_eq
  have hlen := h1.buf_len
  have hsz := h1.size_eq
  have hrl : rest.length = d1.cap - xs.length := by
    rw [hbuf] at hlen; simp at hlen; omega
  -- the buffer after the shift
  have key : ∃ b, shiftRight d1 (if pos < d.size then pos else d.size) = .ok b ∧
      b.length = d1.cap ∧ ∃ x rest', b = (xs.take pos).map some ++ x :: ((xs.drop pos).map some ++ rest') := by
    have hi : (if pos < d.size then pos else d.size) = pos := by
      have := h.size_eq
      split <;> omega
    rw [hi]
    unfold shiftRight
    split
    · rename_i hc
      unfold memmove
      rw [if_pos (by rw [hlen]; omega)]
      refine ⟨_, rfl, ?_, ?_⟩
      · simp [hlen]; omega
      · rw [hbuf, hsz]
        have hpl : pos < xs.length := by omega
        refine ⟨some xs[pos], rest.drop 1, ?_⟩
        have e1 : (xs.map some ++ rest).take (pos + 1) = (xs.take pos).map some ++ [some xs[pos]] := by
          rw [List.take_append_of_le_length (by simp; omega), ← List.map_take,
            (List.take_append_getElem hpl).symm, List.map_append]
          rfl
        have e2 : ((xs.map some ++ rest).drop pos).take (xs.length - pos) = (xs.drop pos).map some := by
          rw [List.drop_append_of_le_length (by simp; omega), List.take_append_of_le_length (by simp),
            List.take_of_length_le (by simp), List.map_drop]
        have e3 : (xs.map some ++ rest).drop (pos + 1 + (xs.length - pos)) = rest.drop 1 := by
          have he : pos + 1 + (xs.length - pos) = xs.length + 1 := by omega
          rw [he, List.drop_append, List.drop_of_length_le (by simp)]
          simp
        rw [e1, e2, e3]; simp
    · rename_i hc
      refine ⟨_, rfl, hlen, ?_⟩
      have hpe : pos = xs.length := by
        by_contra hne
        apply hc
        have : pos < d1.size := by omega
        exact ⟨by omega, this⟩
      subst hpe
      cases rest with
      | nil => simp at hrl; omega
      | cons x r => exact ⟨x, r, by simp [hbuf]⟩
  obtain ⟨b, hb, hbl, x, rest', hbe⟩ := key
  have hms : makeslot d pos = .ok { d1 with buf := b, size := d1.size + 1 } := by
    unfold makeslot
    simp only [hr, Res.ok_bind]
    rw [hb]; rfl
  rw [insert]
  split
  case h_1 d2 h2 =>
    rw [hms] at h2
    cases h2
    rw [if_pos (by simp only; omega)]
    have hbl2 : pos < b.length := by rw [hbl]; omega
    simp only [write, hbl2, if_true, Res.ok_bind, Res.pure_eq]
    refine ⟨_, rfl, ?_, hel⟩
    have hil := ins_length xs pos v hp
    refine ⟨by simp only; omega, h1.cap_pos, by simp only; omega, h1.elem_pos, h1.bytes, by simp [hbl], rest', ?_⟩
    simp only [hbe, ins]
    rw [List.set_append_right _ _ (by simp)]
    simp [Nat.min_eq_left hp]
  case h_2 h2 => rw [hms] at h2; cases h2
  case h_3 h2 => rw [hms] at h2; cases h2
  case h_4 h2 => rw [hms] at h2; cases h2

theorem get_rep {d : DA α} {xs : List α} (h : Rep d xs) {i : Nat} (hi : i < xs.length) :
    get d i = .ok xs[i] := by
  obtain ⟨rest, hb⟩ := h.buf_eq
  unfold get
  rw [hb, List.getElem?_append_left (by simpa using hi)]
  simp [hi]

theorem set_rep {d : DA α} {xs : List α} (h : Rep d xs) {i : Nat} (hi : i < xs.length) (v : α) :
    ∃ d', set d i v = .ok d' ∧ Rep d' (xs.set i v) ∧ d'.elem = d.elem := by
  obtain ⟨rest, hb⟩ := h.buf_eq
  have hlen := h.buf_len
  have hl := h.le_cap
  have hs := h.size_eq
  unfold set
  rw [if_pos (by omega)]
  unfold write
  rw [if_pos (by omega)]
  refine ⟨_, rfl, ⟨by simp [hs], h.cap_pos, by simpa using h.le_cap, h.elem_pos, h.bytes, by simp [hlen], rest, ?_⟩, rfl⟩
  simp only [hb]
  rw [List.set_append_left _ _ (by simpa using hi)]
  simp [List.map_set]

theorem remove_ge {d : DA α} {xs : List α} (h : Rep d xs) {i : Nat} (hi : xs.length ≤ i) :
    remove d i = .ok (d, []) := by
  unfold remove
  rw [if_pos (by rw [h.size_eq]; exact hi)]

theorem remove_rep {d : DA α} {xs : List α} (h : Rep d xs) {i : Nat} (hi : i < xs.length) :
    ∃ d', remove d i = .ok (d', [xs[i]]) ∧ Rep d' (xs.take i ++ xs.drop (i + 1)) ∧ d'.elem = d.elem := by
  have hb := h.buf_eq
  obtain ⟨rest, hb⟩ := hb
  have hlen := h.buf_len
  have hl := h.le_cap
  have hs := h.size_eq
  have he := h.elem_pos
  unfold remove
  rw [if_neg (by omega), get_rep h hi]
  simp only [Res.ok_bind]
  unfold memmove
  rw [if_pos (by omega)]
  simp only [Res.ok_bind]
  have hxl : (xs.take i ++ xs.drop (i + 1)).length = xs.length - 1 := by simp; omega
  -- contents after the move
  have hmv : ∃ rest', d.buf.take i ++ (d.buf.drop (i + 1)).take (d.size - i - 1) ++
      d.buf.drop (i + (d.size - i - 1)) = (xs.take i ++ xs.drop (i + 1)).map some ++ rest' := by
    refine ⟨d.buf.drop (i + (d.size - i - 1)), ?_⟩
    congr 1
    have e1 : d.buf.take i = (xs.take i).map some := by
      rw [hb, List.take_append_of_le_length (by simp; omega), List.map_take]
    have e2 : (d.buf.drop (i + 1)).take (d.size - i - 1) = (xs.drop (i + 1)).map some := by
      rw [hb, List.drop_append_of_le_length (by simp; omega),
        List.take_append_of_le_length (by simp; omega), List.take_of_length_le (by simp; omega), List.map_drop]
    rw [e1, e2, List.map_append]
  have hml : (d.buf.take i ++ (d.buf.drop (i + 1)).take (d.size - i - 1) ++
      d.buf.drop (i + (d.size - i - 1))).length = d.cap := by
    simp; omega
  split
  · rename_i hc
    have hbytes : d.cap / 2 * d.elem < U32 :=
      lt_of_le_of_lt (Nat.mul_le_mul_right _ (Nat.div_le_self _ _)) h.bytes
    refine ⟨_, rfl, ⟨by simp only; omega, by simp only; omega, by simp only; omega, he, hbytes, ?_, ?_⟩, rfl⟩
    · simp only [slots_eq hbytes he, realloc_length]
    · obtain ⟨r, hr⟩ := hmv
      simp only [hr, slots_eq hbytes he]
      exact realloc_prefix _ _ _ (by omega)
  · exact ⟨_, rfl, ⟨by simp only; omega, h.cap_pos, by simp only; omega, he, h.bytes, hml, hmv⟩, rfl⟩

theorem readFrom_rep {d : DA α} {xs : List α} (h : Rep d xs) :
    ∀ (n i : Nat), i + n = xs.length → readFrom d i n = .ok (xs.drop i)
  | 0, i, hn => by
    rw [readFrom, List.drop_of_length_le (by omega)]
  | n + 1, i, hn => by
    rw [readFrom, get_rep h (by omega : i < xs.length), Res.ok_bind, readFrom_rep h n (i + 1) (by omega)]
    simp

theorem toList_rep {d : DA α} {xs : List α} (h : Rep d xs) : toList d = .ok xs := by
  unfold toList
  rw [readFrom_rep h d.size 0 (by rw [h.size_eq]; omega)]
  simp

theorem clear_rep {d : DA α} {xs : List α} (h : Rep d xs) {cap : Nat} (hc : 1 ≤ cap)
    (hb : cap * d.elem < U32) :
    ∃ d', clear d cap = .ok (d', xs) ∧ Rep d' ([] : List α) ∧ d'.elem = d.elem := by
  unfold clear
  rw [toList_rep h]
  refine ⟨_, rfl, ⟨rfl, hc, by simp, h.elem_pos, hb, ?_, ⟨_, rfl⟩⟩, rfl⟩
  simp only [slots_eq hb h.elem_pos, realloc_length]

theorem push_rep {d : DA α} {xs : List α} (h : Rep d xs) (v : α)
    (hf : 2 * (xs.length + 1) * d.elem < U32) :
    ∃ d', push d v = .ok d' ∧ Rep d' (xs ++ [v]) ∧ d'.elem = d.elem := by
  unfold push
  have hs : d.size % U32 = xs.length := by
    rw [Nat.mod_eq_of_lt]
    · exact h.size_eq
    · have := h.cap_lt; have := h.le_cap; have := h.size_eq; omega
  rw [hs]
  have := insert_rep h (le_refl xs.length) v hf
  simpa [ins] using this

theorem pop_rep_nil {d : DA α} (h : Rep d ([] : List α)) : pop d = .ok (d, []) := by
  unfold pop
  exact remove_ge h (by simp)

theorem pop_rep {d : DA α} {xs : List α} (h : Rep d xs) (hne : xs ≠ []) :
    ∃ d', pop d = .ok (d', [xs.getLast hne]) ∧ Rep d' xs.dropLast ∧ d'.elem = d.elem := by
  have hpos : 0 < xs.length := List.length_pos_iff.mpr hne
  have hs : (d.size + (U32 - 1)) % U32 = xs.length - 1 := by
    have := h.cap_lt; have := h.le_cap; have := h.size_eq
    simp only [U32] at *
    omega
  unfold pop
  rw [hs]
  obtain ⟨d', h1, h2, h3⟩ := remove_rep h (i := xs.length - 1) (by omega)
  refine ⟨d', ?_, ?_, h3⟩
  · rw [h1, List.getLast_eq_getElem]
  · rw [List.dropLast_eq_take]
    have : xs.drop (xs.length - 1 + 1) = [] := List.drop_of_length_le (by omega)
    rw [this, List.append_nil] at h2
    exact h2

theorem new_rep {cap elem : Nat} (hc : 1 ≤ cap) (he : 0 < elem) (hb : cap * elem < U32) :
    ∃ d : DA α, new cap elem = .ok d ∧ Rep d ([] : List α) ∧ d.elem = elem := by
  unfold new
  rw [if_neg (by omega)]
  exact ⟨_, rfl, ⟨rfl, hc, by simp, he, hb, by simp, ⟨_, rfl⟩⟩, rfl⟩

theorem clone_rep {d : DA α} {xs : List α} (h : Rep d xs) :
    ∃ d', clone d = .ok d' ∧ Rep d' xs ∧ d'.elem = d.elem := by
  have hs := h.size_eq
  have hl := h.le_cap
  have hcl := h.cap_lt
  have hc1 := h.cap_pos
  have hbl := h.buf_len
  obtain ⟨rest, hb⟩ := h.buf_eq
  have hcap : (if 0 < d.size then d.size else 1) % U32 = (if 0 < d.size then d.size else 1) := by
    apply Nat.mod_eq_of_lt; simp only [U32] at *; split <;> omega
  have hle : (if 0 < d.size then d.size else 1) ≤ d.cap := by split <;> omega
  have hge : d.size ≤ (if 0 < d.size then d.size else 1) := by split <;> omega
  have hone : 1 ≤ (if 0 < d.size then d.size else 1) := by split <;> omega
  have hbytes : (if 0 < d.size then d.size else 1) * d.elem < U32 :=
    lt_of_le_of_lt (Nat.mul_le_mul_right _ hle) h.bytes
  unfold clone
  simp only [hcap, slots_eq hbytes h.elem_pos]
  rw [if_pos (by constructor <;> omega)]
  refine ⟨_, rfl, ⟨hs, hone, by simp only; omega, h.elem_pos, hbytes, ?_, ?_⟩, rfl⟩
  · simp; omega
  · refine ⟨_, congrArg (· ++ _) ?_⟩
    rw [hb, hs, List.take_append_of_le_length (by simp)]
    simp [List.take_of_length_le]

theorem findFrom_rep {d : DA α} {xs : List α} (h : Rep d xs) (eq : α → Bool) :
    ∀ (n i : Nat), i + n = xs.length → findFrom d eq i n = .ok (i + (xs.drop i).findIdx eq)
  | 0, i, hn => by
    rw [findFrom, List.drop_of_length_le (by omega)]; simp
  | n + 1, i, hn => by
    have hi : i < xs.length := by omega
    rw [findFrom, get_rep h hi, Res.ok_bind, List.drop_eq_getElem_cons hi, List.findIdx_cons]
    by_cases he : eq xs[i]
    · simp [he]
    · simp only [he, Bool.false_eq_true, if_false, cond_false]
      rw [findFrom_rep h eq n (i + 1) (by omega)]
      congr 1; omega

theorem find_rep {d : DA α} {xs : List α} (h : Rep d xs) (eq : α → Bool) :
    find d eq = .ok (xs.findIdx eq) := by
  unfold find
  rw [findFrom_rep h eq d.size 0 (by rw [h.size_eq]; omega)]
  simp

end Buzz.Darray
