import Verif.Props.Lex

/-
Texts given by their lexemes, for concrete cases: checking the lexemes shows that the text is lexed to their tokens.
-/
namespace Buzz.Props

open Buzz.Msg Buzz.Lex Buzz.VM

/-- A piece of a text: a blank, the end of a line, the `i`-th mark, the `i`-th reserved word, a number, a name, a string, a comment with its
end of line. -/
inductive Part where
  | gap
  | nl
  | mark (i : Nat)
  | word (i : Nat)
  | num (t : Bytes)
  | name (t : Bytes)
  | str (t : Bytes)
  | comment (t : Bytes)

def Part.text : Part → Bytes
  | .gap => [32]
  | .nl => [10]
  | .mark i => match marks[i]? with | some (s, _) => chars s | none => []
  | .word i => match reserved[i]? with | some (s, _) => chars s | none => []
  | .num t => t
  | .name t => t
  | .str t => 34 :: (t ++ [34])
  | .comment t => 35 :: (t ++ [10])

def parts : List Part → Bytes
  | [] => []
  | p :: ps => p.text ++ parts ps

def partToks (name : Bytes) : Nat → Nat → List Part → List Tok
  | _, _, [] => []
  | l, k, p :: ps =>
    match p with
    | .gap => partToks name l (k + 1) ps
    | .nl => ⟨.statend, [], l, k, name⟩ :: partToks name (l + 1) 0 ps
    | .mark i => match marks[i]? with
      | some (s, t, v, _) => ⟨t, chars v, l, k, name⟩ :: partToks name l (k + (chars s).length) ps
      | none => []
    | .word i => match reserved[i]? with
      | some (s, t) => ⟨t, chars s, l, k, name⟩ :: partToks name l (k + (chars s).length) ps
      | none => []
    | .num t => ⟨.const, t, l, k, name⟩ :: partToks name l (k + t.length) ps
    | .name t => ⟨.id, t, l, k, name⟩ :: partToks name l (k + t.length) ps
    | .str t => ⟨.string, t, l, k, name⟩ :: partToks name l (k + (t.length + 2)) ps
    | .comment _ => partToks name (l + 1) 0 ps

/-- A condition on the next character, if there is one. -/
def nextIs (p : UInt8 → Bool) (r : Bytes) : Bool :=
  match r with
  | [] => true
  | d :: _ => p d

def partOk (r : Bytes) : Part → Bool
  | .gap => true
  | .nl => true
  | .mark i => match marks[i]? with
    | some (_, _, _, no) => nextIs (fun d => !(chars no).contains d) r
    | none => false
  | .word i => match reserved[i]? with
    | some _ => nextIs (fun d => !isId d) r
    | none => false
  | .num t => match t with
    | c :: ds => isDigit c && ds.all isNumber && nextIs (fun d => !isNumber d) r
    | [] => false
  | .name t => match t with
    | c :: cs => isAlpha c && cs.all isId && wordBytes.all (fun w => decide (w.1 ≠ c :: cs)) && !(includeWord.isPrefixOf (c :: cs)) && nextIs (fun d => !isId d) r
    | [] => false
  | .str t => t.all (fun c => decide (c ≠ 34 ∧ c ≠ 92 ∧ c ≠ 0))
  | .comment t => t.all (fun c => decide (c ≠ 10))

def partsOk : List Part → Bool
  | [] => true
  | p :: ps => partsOk ps && partOk (parts ps) p

theorem nextIs_spec {p : UInt8 → Bool} {r : Bytes} (h : nextIs p r = true) {d : UInt8} (hd : r.head? = some d) : p d = true := by
  cases r with
  | nil => cases hd
  | cons a r => cases hd; exact h

theorem parts_lexed (fs : FS) (act : List Bytes) (name : Bytes) : ∀ (ps : List Part) (l k : Nat), partsOk ps = true → Lexed fs act name l k (parts ps) (partToks name l k ps) true := by
  intro ps
  induction ps with
  | nil => intro l k _; exact .done
  | cons p ps ih =>
    intro l k h
    rw [partsOk, Bool.and_eq_true] at h
    obtain ⟨h0, h⟩ := h
    rw [parts]
    cases p with
    | gap => exact .gap (Or.inl rfl) (ih _ _ h0)
    | nl => exact .newline (ih _ _ h0)
    | mark i =>
      simp only [Part.text, partToks, partOk] at h ⊢
      cases hm : marks[i]? with
      | none => rw [hm] at h; cases h
      | some m =>
        obtain ⟨s, t, v, no⟩ := m
        rw [hm] at h
        simp only at h ⊢
        refine .tok (.mark (List.mem_of_getElem? hm)) (fun d hd => ?_) (ih _ _ h0)
        have := nextIs_spec h hd
        simpa using this
    | word i =>
      simp only [Part.text, partToks, partOk] at h ⊢
      cases hm : reserved[i]? with
      | none => rw [hm] at h; cases h
      | some m =>
        obtain ⟨s, t⟩ := m
        rw [hm] at h
        simp only at h ⊢
        refine .tok (.word (List.mem_of_getElem? hm)) (fun d hd => ?_) (ih _ _ h0)
        have := nextIs_spec h hd
        rw [← name_iff]
        simpa using this
    | num t =>
      simp only [Part.text, partToks, partOk] at h ⊢
      cases t with
      | nil => cases h
      | cons c ds =>
        simp only [Bool.and_eq_true] at h
        refine .tok (.number (digit_iff.mp h.1.1) (fun d hd => number_iff.mp (List.all_eq_true.mp h.1.2 d hd))) (fun d hd => ?_) (ih _ _ h0)
        have := nextIs_spec h.2 hd
        rw [Bool.not_eq_true', ← Bool.not_eq_true, number_iff] at this
        exact not_or.mp this
    | name t =>
      simp only [Part.text, partToks, partOk] at h ⊢
      cases t with
      | nil => cases h
      | cons c cs =>
        simp only [Bool.and_eq_true] at h
        refine .tok (.name (letter_iff.mp h.1.1.1.1) (fun d hd => name_iff.mp (List.all_eq_true.mp h.1.1.1.2 d hd)) ?_ ?_) (fun d hd => ?_) (ih _ _ h0)
        · intro s t hs e
          have := List.all_eq_true.mp h.1.1.2 _ (word_mem hs)
          simp only [decide_eq_true_eq] at this
          exact this e.symm
        · rw [include_bytes]
          have := h.1.2
          rw [Bool.not_eq_true', ← Bool.not_eq_true, List.isPrefixOf_iff_prefix] at this
          exact this
        · have := nextIs_spec h.2 hd
          rw [← name_iff]
          simpa using this
    | str t =>
      have e : (34 :: (t ++ [34]) : Bytes).length = t.length + 2 := by simp
      simp only [Part.text, partToks, partOk] at h ⊢
      rw [← e]
      refine .tok (.string (Or.inl rfl) (fun c hc => by simpa using List.all_eq_true.mp h c hc)) (fun _ _ => trivial) (ih _ _ h0)
    | comment t =>
      simp only [Part.text, partToks, partOk] at h ⊢
      have e : 35 :: (t ++ [10]) ++ parts ps = 35 :: (t ++ 10 :: parts ps) := by simp
      rw [e]
      exact .comment (fun c hc => by simpa using List.all_eq_true.mp h c hc) (ih _ _ h0)

/-- The pieces of a text.  Nothing depends on how they are found: `partsOk` and `parts` check them. -/
def scan : Nat → Bytes → List Part
  | 0, _ => []
  | _ + 1, [] => []
  | n + 1, c :: r =>
    if c = 32 then .gap :: scan n r
    else if c = 10 then .nl :: scan n r
    else if c = 35 then .comment (r.takeWhile (· ≠ 10)) :: scan n (r.dropWhile (· ≠ 10)).tail
    else if c = 34 then .str (r.takeWhile (· ≠ 34)) :: scan n (r.dropWhile (· ≠ 34)).tail
    else if isDigit c then .num (c :: r.takeWhile isNumber) :: scan n (r.dropWhile isNumber)
    else if isAlpha c then
      (match wordBytes.findIdx? (fun w => decide (w.1 = c :: r.takeWhile isId)) with
        | some i => Part.word i
        | none => .name (c :: r.takeWhile isId)) :: scan n (r.dropWhile isId)
    else
      match markBytes.findIdx? (fun m => decide (m.1 = c :: r.take 1)) with
      | some i => .mark i :: scan n r.tail
      | none =>
        match markBytes.findIdx? (fun m => decide (m.1 = [c])) with
        | some i => .mark i :: scan n r
        | none => []

end Buzz.Props
