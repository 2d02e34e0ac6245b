import Verif.Asm
import Verif.Props.Debug

/-
Property C40 (assembling and reading back), proved about the model of src/buzz/buzzasm.c in `Verif/Asm.lean`.

The specification describes assembly text by a grammar (`Line`, `FileOf`) that relates lines to abstract items; the layout (spaces,
comments, empty lines) is free.
-/
namespace Buzz.Props

open Buzz.Msg Buzz.VM Buzz.Debug Buzz.Asm

/-! ### Specification -/

/-- The argument of an instruction: a 32-bit word, or a label. -/
inductive AsmArg where
  | word (w : Nat)
  | ref (l : Bytes)

/-- What a line of assembly means. -/
inductive Item where
  | blank
  | str (s : Bytes)
  | count (n : Nat)
  | label (l : Bytes) (d : Option Pos)
  | ins (op : Nat) (a : Option AsmArg) (d : Option Pos)

/-- Spaces and tabs. -/
def Spaces (ws : Bytes) : Prop := ∀ c ∈ ws, c = 32 ∨ c = 9

/-- Text within one line. -/
def NoBreak (s : Bytes) : Prop := ∀ c ∈ s, c ≠ 0 ∧ c ≠ 10

/-- A word: no white space, no bar, no zero. -/
def Clean (t : Bytes) : Prop := ∀ c ∈ t, isSpace c = false ∧ c ≠ 124 ∧ c ≠ 0

/-- The number written by decimal digits. -/
inductive Decimal : Bytes → Nat → Prop where
  | digit {c : UInt8} : 48 ≤ c.toNat → c.toNat ≤ 57 → Decimal [c] (c.toNat - 48)
  | more {t : Bytes} {n : Nat} {c : UInt8} : Decimal t n → 48 ≤ c.toNat → c.toNat ≤ 57 → Decimal (t ++ [c]) (10 * n + (c.toNat - 48))

/-- A number with an optional sign. -/
inductive Signed : Bytes → Int → Prop where
  | plain {t : Bytes} {n : Nat} : Decimal t n → Signed t n
  | plus {t : Bytes} {n : Nat} : Decimal t n → Signed (43 :: t) n
  | minus {t : Bytes} {n : Nat} : Decimal t n → Signed (45 :: t) (-n)

/-- Debug information at the end of a line: `|line,column,file`. -/
inductive DbgText : Option Pos → Bytes → Prop where
  | none : DbgText none []
  | some {f tl tc : Bytes} {l c : Nat} : Decimal tl l → Decimal tc c → l < 9223372036854775808 → c < 9223372036854775808 →
      (∀ x ∈ f, x ≠ 0 ∧ x ≠ 10 ∧ x ≠ 44 ∧ x ≠ 124) → (∀ x, f.getLast? = some x → isSpace x = false) →
      DbgText (some ⟨f, l, c⟩) (124 :: (tl ++ 44 :: (tc ++ 44 :: f)))

/-- The text of an argument.  Opcode 35 takes a float, 36 to 43 take integers, 44 to 46 (the jumps) labels; a label may stand for any
argument. -/
inductive ArgText (T : Tools) : Nat → Bytes → AsmArg → Prop where
  | int {op : Nat} {t : Bytes} {v : Int} : 36 ≤ op → op ≤ 43 → Signed t v → v.natAbs < 18446744073709551616 →
      ArgText T op t (.word (v % 4294967296).toNat)
  | flt {t : Bytes} {w : Nat} : T.strtof t = some w → w < 4294967296 → ArgText T 35 t (.word w)
  | ref {op : Nat} {t : Bytes} : 36 ≤ op → (∀ c, t.head? = some c → isDigit c = false ∧ c ≠ 43 ∧ c ≠ 45) → ArgText T op t (.ref t)
  | fref {t : Bytes} : T.strtof t = none → ArgText T 35 t (.ref t)

/-- Lines of assembly (without the newline). -/
inductive Line (T : Tools) : Bytes → Item → Prop where
  | blank {ws : Bytes} : Spaces ws → Line T ws .blank
  | comment {ws r : Bytes} : Spaces ws → NoBreak r → Line T (ws ++ 35 :: r) .blank
  | str {ws s : Bytes} : Spaces ws → NoBreak s → Line T (ws ++ 39 :: s) (.str s)
  | count {ws t ws' : Bytes} {n : Nat} : Spaces ws → Decimal t n → n < 65536 → Spaces ws' → Line T (ws ++ 33 :: (t ++ ws')) (.count n)
  | label {ws l ws' dt ws'' : Bytes} {d : Option Pos} : Spaces ws → Clean l → Spaces ws' → DbgText d dt → Spaces ws'' →
      Line T (ws ++ 64 :: (l ++ (ws' ++ (dt ++ ws'')))) (.label (64 :: l) d)
  | ins0 {ws nm ws' dt ws'' : Bytes} {op : Nat} {d : Option Pos} : Spaces ws → op < 35 → names[op]? = some nm → Spaces ws' → DbgText d dt → Spaces ws'' →
      Line T (ws ++ (nm ++ (ws' ++ (dt ++ ws'')))) (.ins op none d)
  | ins1 {ws nm t ws' dt ws'' : Bytes} {op : Nat} {s : UInt8} {a : AsmArg} {d : Option Pos} : Spaces ws → 35 ≤ op → names[op]? = some nm → s = 32 ∨ s = 9 →
      t ≠ [] → Clean t → ArgText T op t a → Spaces ws' → DbgText d dt → Spaces ws'' →
      Line T (ws ++ (nm ++ s :: (t ++ (ws' ++ (dt ++ ws''))))) (.ins op (some a) d)

/-- A file: every line ends with a newline. -/
inductive FileOf (T : Tools) : Bytes → List Item → Prop where
  | nil : FileOf T [] []
  | cons {bs rest : Bytes} {i : Item} {is : List Item} : Line T bs i → FileOf T rest is → FileOf T (bs ++ 10 :: rest) (i :: is)

/-- The bytes taken by an item. -/
def Item.size : Item → Nat
  | .blank => 0
  | .str s => s.length + 1
  | .count _ => 2
  | .label _ _ => 0
  | .ins _ none _ => 1
  | .ins _ (some _) _ => 5

/-- The bytes taken by a program. -/
def progSize (is : List Item) : Nat := (is.map Item.size).sum

/-- A label marks a position: that of its last definition. -/
def LabelAt (is : List Item) (l : Bytes) (p : Nat) : Prop :=
  ∃ pre d post, is = pre ++ .label l d :: post ∧ p = progSize pre ∧ ∀ d', Item.label l d' ∉ post

/-- A label is used by an instruction. -/
def Uses (is : List Item) (l : Bytes) : Prop := ∃ op d, Item.ins op (some (.ref l)) d ∈ is

/-- The bytecode of an item, for given label positions. -/
def Item.bytes (h : Endian) (look : Bytes → Nat) : Item → Bytes
  | .blank => []
  | .str s => s ++ [0]
  | .count n => mem16 h n
  | .label _ _ => []
  | .ins op none _ => [byte op]
  | .ins op (some (.word w)) _ => byte op :: mem32 h w
  | .ins op (some (.ref l)) _ => byte op :: mem32 h (look l)

/-- The debug information of a program whose bytecode begins at `b`. -/
def dbgOf (b : Nat) : List Item → List (Int × Pos)
  | [] => []
  | .label l (some p) :: is => (b, p) :: dbgOf b is
  | .ins op a (some p) :: is => (b, p) :: dbgOf (b + (Item.ins op a (some p)).size) is
  | i :: is => dbgOf (b + i.size) is

/-- The instructions of a program with their positions. -/
def shows (look : Bytes → Nat) (b : Nat) : List Item → List Shown
  | [] => []
  | .ins op none _ :: is => ⟨b, op, none⟩ :: shows look (b + 1) is
  | .ins op (some (.word w)) _ :: is => ⟨b, op, some w⟩ :: shows look (b + 5) is
  | .ins op (some (.ref l)) _ :: is => ⟨b, op, some (look l)⟩ :: shows look (b + 5) is
  | i :: is => shows look (b + i.size) is

/-- The strings of a program. -/
def stringsOf : List Item → List Bytes
  | [] => []
  | .str s :: is => s :: stringsOf is
  | _ :: is => stringsOf is

/-! ### Text lemmas -/

theorem Spaces.space {ws : Bytes} (h : Spaces ws) : ∀ c ∈ ws, isSpace c = true := by
  intro c hc
  rcases h c hc with rfl | rfl <;> decide

theorem dropSpaces {ws : Bytes} (h : Spaces ws) {c : UInt8} (hc : isSpace c = false) (r : Bytes) : (ws ++ c :: r).dropWhile isSpace = c :: r := by
  rw [List.dropWhile_append_of_pos h.space, List.dropWhile_cons_of_neg (by simp [hc])]

theorem rtrim_spaces {c : UInt8} {l ws : Bytes} (hl : ∀ x, l.getLast? = some x → isSpace x = false) (h : ∀ x ∈ ws, isSpace x = true) :
    rtrim (c :: (l ++ ws)) = c :: l := by
  show c :: ((l ++ ws).reverse.dropWhile isSpace).reverse = _
  rw [List.reverse_append, List.dropWhile_append_of_pos (by simpa using h)]
  rcases List.eq_nil_or_concat l with rfl | ⟨m, x, rfl⟩
  · rfl
  · rw [List.concat_eq_append, List.reverse_append, List.reverse_cons, List.reverse_nil, List.nil_append, List.singleton_append,
      List.dropWhile_cons_of_neg (by simp [hl x (by simp)])]
    simp

theorem strsep_hit {ds t r : Bytes} {d : UInt8} (h : ∀ c ∈ t, c ∉ ds) (hd : d ∈ ds) : strsep ds (some (t ++ d :: r)) = (some t, some r) := by
  unfold strsep
  have : (t ++ d :: r).takeWhile (fun c => !ds.contains c) = t := by
    rw [List.takeWhile_append_of_pos (by intro a ha; simp [h a ha]), List.takeWhile_cons_of_neg (by simp [hd]), List.append_nil]
  simp only [this, List.drop_left]

theorem strsep_end {ds t : Bytes} (h : ∀ c ∈ t, c ∉ ds) : strsep ds (some t) = (some t, none) := by
  unfold strsep
  have : t.takeWhile (fun c => !ds.contains c) = t := takeWhile_all (by intro a ha; simp [h a ha])
  simp only [this, List.drop_length]

theorem strsep_spaces {t sp : Bytes} (h : Clean t) (hs : Spaces sp) : (strsep [32, 10, 9] (some (t ++ sp))).1 = some t := by
  have hc : ∀ c ∈ t, c ∉ [(32 : UInt8), 10, 9] := by
    intro c hc k
    have := (h c hc).1
    simp only [List.mem_cons, List.not_mem_nil, or_false] at k
    rcases k with rfl | rfl | rfl <;> cases this
  cases sp with
  | nil => rw [List.append_nil, strsep_end hc]
  | cons d r =>
    rw [strsep_hit hc (by rcases hs d (by simp) with rfl | rfl <;> decide)]

theorem decimal_ok {t : Bytes} {n : Nat} (h : Decimal t n) : number t = n ∧ (∀ c ∈ t, isDigit c = true) ∧ t ≠ [] := by
  induction h with
  | @digit c h1 h2 =>
    refine ⟨by simp [number], fun x hx => ?_, by simp⟩
    simp only [List.mem_singleton] at hx
    subst hx
    simp [isDigit, UInt8.le_iff_toNat_le, h1, h2]
  | @more t n c h h1 h2 ih =>
    refine ⟨?_, fun x hx => ?_, by simp⟩
    · unfold number at ih ⊢
      rw [List.foldl_append, ih.1]
      rfl
    · rw [List.mem_append, List.mem_singleton] at hx
      rcases hx with hx | rfl
      · exact ih.2.1 x hx
      · simp [isDigit, UInt8.le_iff_toNat_le, h1, h2]

theorem isDigit_iff (c : UInt8) : isDigit c = true ↔ 48 ≤ c.toNat ∧ c.toNat ≤ 57 := by
  simp [isDigit, UInt8.le_iff_toNat_le]

theorem isSpace_iff (c : UInt8) : isSpace c = true ↔ c.toNat = 32 ∨ (9 ≤ c.toNat ∧ c.toNat ≤ 13) := by
  simp [isSpace, UInt8.le_iff_toNat_le, ← UInt8.toNat_inj]

theorem digit_plain {c : UInt8} (h : isDigit c = true) : isSpace c = false ∧ c ≠ 124 ∧ c ≠ 0 ∧ c ≠ 44 ∧ c ≠ 10 ∧ c ≠ 43 ∧ c ≠ 45 := by
  rw [isDigit_iff] at h
  refine ⟨?_, ?_, ?_, ?_, ?_, ?_, ?_⟩
  · rw [← Bool.not_eq_true, isSpace_iff]; omega
  all_goals
    rintro rfl
    revert h
    decide

theorem strtol_plain {t : Bytes} {n : Nat} (h : Decimal t n) : strtol t = some (n : Int) := by
  obtain ⟨h1, h2, h3⟩ := decimal_ok h
  cases t with
  | nil => exact absurd rfl h3
  | cons c l =>
    have hc := digit_plain (h2 c (by simp))
    unfold strtol
    have e : (c :: l).dropWhile isSpace = c :: l := List.dropWhile_cons_of_neg (by simp [hc.1])
    simp only [e, List.head?_cons, Option.some.injEq, hc.2.2.2.2.2.1, hc.2.2.2.2.2.2, or_self, if_false]
    rw [takeWhile_all h2, if_neg h3, h1]

theorem strtol_signed {t : Bytes} {v : Int} (h : Signed t v) : strtol t = some v := by
  have step : ∀ (c : UInt8), isSpace c = false → ∀ l, (c :: l).dropWhile isSpace = c :: l := fun c hc l => List.dropWhile_cons_of_neg (by simp [hc])
  cases h with
  | plain h => exact strtol_plain h
  | @plus t n h =>
    obtain ⟨h1, h2, h3⟩ := decimal_ok h
    unfold strtol
    simp only [step 43 (by decide) t, List.head?_cons, Option.some.injEq, show (43 : UInt8) ≠ 45 by decide, false_or, if_true, if_false, List.tail_cons]
    rw [takeWhile_all h2, if_neg h3, h1]
  | @minus t n h =>
    obtain ⟨h1, h2, h3⟩ := decimal_ok h
    unfold strtol
    simp only [step 45 (by decide) t, List.head?_cons, true_or, if_true, List.tail_cons]
    rw [takeWhile_all h2, if_neg h3, h1]

theorem strtol64_decimal {t : Bytes} {n : Nat} (h : Decimal t n) (hn : n < 9223372036854775808) : strtol64 t = n := by
  unfold strtol64
  rw [strtol_plain h]
  simp only
  rw [if_neg (by omega), if_neg (by omega)]
  omega

theorem strtoul32_signed {t : Bytes} {v : Int} (h : Signed t v) (hv : v.natAbs < 18446744073709551616) : strtoul32 t = some (v % 4294967296).toNat := by
  unfold strtoul32
  rw [strtol_signed h]
  simp only
  rw [if_neg (by omega)]

theorem strtoul32_name {t : Bytes} (hc : Clean t) (h : ∀ c, t.head? = some c → isDigit c = false ∧ c ≠ 43 ∧ c ≠ 45) : strtoul32 t = none := by
  unfold strtoul32
  cases t with
  | nil => rfl
  | cons c l =>
    obtain ⟨k1, k2, k3⟩ := h c rfl
    have e : (c :: l).dropWhile isSpace = c :: l := List.dropWhile_cons_of_neg (by simp [(hc c (by simp)).1])
    unfold strtol
    simp only [e, List.head?_cons, Option.some.injEq, k2, k3, or_self, if_false]
    rw [List.takeWhile_cons_of_neg (by simp [k1]), if_pos rfl]

theorem lines_line {bs : Bytes} (h : ∀ c ∈ bs, c ≠ 10) (rest : Bytes) : lines (bs ++ 10 :: rest) = (bs ++ [10]) :: lines rest := by
  induction bs with
  | nil => rfl
  | cons c l ih =>
    rw [List.cons_append]
    conv_lhs => unfold lines
    rw [if_neg (h c (by simp)), ih (fun x hx => h x (by simp [hx]))]
    rfl

/-! ### One line -/

/-- The bytes of an item in the first pass. -/
def Item.raw (h : Endian) : Item → Bytes := Item.bytes h (fun _ => 0)

/-- The labels defined, the substitutions and the debug information noted by an item at position `b`. -/
def Item.defs (b : Nat) : Item → List (Bytes × Nat)
  | .label l _ => [(l, b)]
  | _ => []

def Item.subs (b : Nat) : Item → List (Nat × Bytes)
  | .ins _ (some (.ref l)) _ => [(b + 1, l)]
  | _ => []

def Item.dbg : Item → Option Pos
  | .label _ d => d
  | .ins _ _ d => d
  | _ => none

/-- The effect of a line. -/
structure Post (h : Endian) (i : Item) (st st' : A) : Prop where
  buf : st'.buf = st.buf ++ i.raw h
  cap : st'.buf.length < st'.cap
  labpos : st'.labpos = (i.defs st.buf.length).foldl (fun m e => FMap.set m e.1 e.2) st.labpos
  labsubs : st'.labsubs = (i.subs st.buf.length).foldl (fun m e => FMap.set m e.1 e.2) st.labsubs
  dbg : st'.dbg = (i.dbg.toList.foldl (fun d p => infoSet d st.buf.length p) st.dbg)

theorem put_ok {st : A} (hc : st.buf.length < st.cap) (bs : Bytes) : ∃ c, put st bs = .ok { st with buf := st.buf ++ bs, cap := c } ∧ st.buf.length + bs.length < c := by
  unfold put
  simp only
  by_cases h : st.buf.length + bs.length ≥ st.cap
  · rw [if_pos h, if_pos (by omega)]
    exact ⟨_, rfl, by omega⟩
  · rw [if_neg h, if_pos (by omega)]
    exact ⟨_, rfl, by omega⟩

/-- The text in front of the debug information, and the effect of the latter. -/
theorem split_line {c : UInt8} {l ws dt ws' : Bytes} {d : Option Pos} (hc : isSpace c = false) (hb : c ≠ 124 ∧ c ≠ 10)
    (hl : ∀ x ∈ l, x ≠ 124 ∧ x ≠ 10) (he : ∀ x, l.getLast? = some x → isSpace x = false) (hw : Spaces ws) (hd : DbgText d dt) (hw' : Spaces ws') (st : A) :
    ∃ sp, Spaces sp ∧
      (strsep [124, 10] (some (rtrim (c :: (l ++ (ws ++ (dt ++ (ws' ++ [10])))))))).1 = some (c :: (l ++ sp)) ∧
      debugInfo st (strsep [124, 10] (strsep [124, 10] (some (rtrim (c :: (l ++ (ws ++ (dt ++ (ws' ++ [10]))))))) ).2).1 =
        { st with dbg := d.toList.foldl (fun d p => infoSet d st.buf.length p) st.dbg } := by
  have hsp10 : ∀ x ∈ ws' ++ [10], isSpace x = true := by
    intro x hx
    rw [List.mem_append, List.mem_singleton] at hx
    rcases hx with hx | rfl
    · exact hw'.space x hx
    · decide
  have hcl : ∀ x ∈ c :: l, x ∉ [(124 : UInt8), 10] := by
    intro x hx k
    simp only [List.mem_cons, List.not_mem_nil, or_false] at k hx
    rcases hx with rfl | hx
    · exact k.elim hb.1 hb.2
    · exact k.elim (hl x hx).1 (hl x hx).2
  cases hd with
  | none =>
    refine ⟨[], by simp [Spaces], ?_⟩
    have : rtrim (c :: (l ++ (ws ++ ([] ++ (ws' ++ [10]))))) = c :: l := by
      rw [List.nil_append]
      refine rtrim_spaces he fun x hx => ?_
      rw [List.mem_append] at hx
      exact hx.elim (hw.space x) (hsp10 x)
    rw [this, strsep_end hcl, List.append_nil]
    refine ⟨rfl, ?_⟩
    rfl
  | @some f tl tc ln cn h1 h2 h3 h4 h5 h6 =>
    refine ⟨ws, hw, ?_⟩
    have e : l ++ (ws ++ ((124 :: (tl ++ 44 :: (tc ++ 44 :: f))) ++ (ws' ++ [10]))) = (l ++ ws ++ 124 :: (tl ++ 44 :: (tc ++ 44 :: f))) ++ (ws' ++ [10]) := by
      simp only [List.append_assoc]
    rw [e, rtrim_spaces (fun x hx => ?_) hsp10]
    · have e2 : c :: (l ++ ws ++ 124 :: (tl ++ 44 :: (tc ++ 44 :: f))) = (c :: (l ++ ws)) ++ 124 :: (tl ++ 44 :: (tc ++ 44 :: f)) := by simp
      have d1 := (decimal_ok h1).2
      have d2 := (decimal_ok h2).2
      rw [e2, strsep_hit (fun x hx => ?_) (by decide)]
      · refine ⟨rfl, ?_⟩
        have ht : ∀ x ∈ tl ++ 44 :: (tc ++ 44 :: f), x ∉ [(124 : UInt8), 10] := by
          intro x hx k
          have : x ≠ 124 ∧ x ≠ 10 := by
            simp only [List.mem_append, List.mem_cons] at hx
            rcases hx with hx | rfl | hx | rfl | hx
            · have := digit_plain (d1.1 x hx); exact ⟨this.2.1, this.2.2.2.2.1⟩
            · decide
            · have := digit_plain (d2.1 x hx); exact ⟨this.2.1, this.2.2.2.2.1⟩
            · decide
            · exact ⟨(h5 x hx).2.2.2, (h5 x hx).2.1⟩
          simp only [List.mem_cons, List.not_mem_nil, or_false] at k
          exact k.elim this.1 this.2
        simp only [strsep_end ht]
        have n1 : ∀ x ∈ tl, x ∉ [(44 : UInt8), 10] := by
          intro x hx k
          have := digit_plain (d1.1 x hx)
          simp only [List.mem_cons, List.not_mem_nil, or_false] at k
          exact k.elim this.2.2.2.1 this.2.2.2.2.1
        have n2 : ∀ x ∈ tc, x ∉ [(44 : UInt8), 10] := by
          intro x hx k
          have := digit_plain (d2.1 x hx)
          simp only [List.mem_cons, List.not_mem_nil, or_false] at k
          exact k.elim this.2.2.2.1 this.2.2.2.2.1
        have n3 : ∀ x ∈ f, x ∉ [(44 : UInt8), 10] := by
          intro x hx k
          simp only [List.mem_cons, List.not_mem_nil, or_false] at k
          exact k.elim (h5 x hx).2.2.1 (h5 x hx).2.1
        obtain ⟨y, ys, hy⟩ : ∃ y ys, tl ++ 44 :: (tc ++ 44 :: f) = y :: ys := by
          cases tl with
          | nil => exact absurd rfl d1.2
          | cons y ys => exact ⟨_, _, rfl⟩
        unfold debugInfo
        rw [hy]
        simp only
        rw [← hy, strsep_hit n1 (by decide)]
        simp only
        rw [strsep_hit n2 (by decide)]
        simp only
        rw [strsep_end n3]
        simp only [Option.map_some, Option.getD_some, strtol64_decimal h1 h3, strtol64_decimal h2 h4]
        rfl
      · intro k
        rw [List.mem_cons, List.mem_append] at hx
        rcases hx with rfl | hx | hx
        · exact hcl x (by simp) k
        · exact hcl x (by simp [hx]) k
        · rcases hw x hx with rfl | rfl
          · revert k; decide
          · revert k; decide
    · rw [List.getLast?_append, List.getLast?_cons, List.getLast?_append, List.getLast?_cons] at hx
      simp only [Option.some_or, Option.getD_some, Option.or_some, List.getLast?_cons, List.getLast?_append] at hx
      cases hf : f.getLast? with
      | none =>
        rw [hf] at hx
        simp at hx
        subst hx
        decide
      | some z =>
        rw [hf] at hx
        simp at hx
        subst hx
        exact h6 _ hf

theorem names_ok : ∀ op : Fin 47, ∃ c l, names[op.val]? = some (c :: l) ∧ names.findIdx? (· == c :: l) = some op.val ∧
    (∀ x ∈ c :: l, isSpace x = false ∧ x ≠ 124 ∧ x ≠ 0 ∧ x ≠ 10 ∧ x ≠ 32 ∧ x ≠ 9) ∧ c ≠ 35 ∧ c ≠ 39 ∧ c ≠ 33 ∧ c ≠ 64 := by
  intro op
  have h : ∀ op : Fin 47, (match names[op.val]? with
    | some (c :: l) => decide (names.findIdx? (· == c :: l) = some op.val) && (c :: l).all (fun x => !isSpace x && x != 124 && x != 0 && x != 10 && x != 32 && x != 9) &&
        (c != 35 && c != 39 && c != 33 && c != 64)
    | _ => false) = true := by decide
  have h := h op
  revert h
  cases names[op.val]? with
  | none => intro h; cases h
  | some nm =>
    cases nm with
    | nil => intro h; cases h
    | cons c l =>
      intro h
      simp only [Bool.and_eq_true, decide_eq_true_eq, List.all_eq_true, bne_iff_ne, Bool.not_eq_true', ne_eq] at h
      refine ⟨c, l, rfl, h.1.1, fun x hx => ?_, h.2.1.1.1, h.2.1.1.2, h.2.1.2, h.2.2⟩
      have := h.1.2 x hx
      tauto

theorem Clean.plain {t : Bytes} (h : Clean t) : ∀ x ∈ t, x ≠ 124 ∧ x ≠ 10 := by
  intro x hx
  refine ⟨(h x hx).2.1, ?_⟩
  rintro rfl
  have := (h 10 hx).1
  revert this
  decide

theorem Clean.last {t : Bytes} (h : Clean t) : ∀ x, t.getLast? = some x → isSpace x = false := fun x hx => (h x (List.mem_of_getLast? hx)).1

theorem Spaces.nobreak {t : Bytes} (h : Spaces t) : NoBreak t := by
  intro c hc
  rcases h c hc with rfl | rfl <;> decide

theorem Clean.nobreak {t : Bytes} (h : Clean t) : NoBreak t := fun c hc => ⟨(h c hc).2.2, (h.plain c hc).2⟩

theorem Decimal.nobreak {t : Bytes} {n : Nat} (h : Decimal t n) : NoBreak t := fun c hc =>
  have := digit_plain ((decimal_ok h).2.1 c hc); ⟨this.2.2.1, this.2.2.2.2.1⟩

theorem NoBreak.app {s t : Bytes} (h : NoBreak s) (h' : NoBreak t) : NoBreak (s ++ t) := by
  intro c hc
  rw [List.mem_append] at hc
  exact hc.elim (h c) (h' c)

theorem NoBreak.cons {c : UInt8} {t : Bytes} (hc : c ≠ 0 ∧ c ≠ 10) (h : NoBreak t) : NoBreak (c :: t) := by
  intro x hx
  rcases List.mem_cons.mp hx with rfl | hx
  · exact hc
  · exact h x hx

theorem DbgText.nobreak {d : Option Pos} {dt : Bytes} (h : DbgText d dt) : NoBreak dt := by
  cases h with
  | none => intro c hc; cases hc
  | some h1 h2 _ _ h5 _ =>
    exact .cons (by decide) (h1.nobreak.app (.cons (by decide) (h2.nobreak.app (.cons (by decide) fun x hx => ⟨(h5 x hx).1, (h5 x hx).2.1⟩))))

theorem name_of {op : Nat} {nm : Bytes} (h : names[op]? = some nm) : ∃ c l, nm = c :: l ∧ names.findIdx? (· == nm) = some op ∧ Clean nm ∧ c ≠ 35 ∧ c ≠ 39 ∧ c ≠ 33 ∧ c ≠ 64 := by
  have hlt : op < 47 := (List.getElem?_eq_some_iff.mp h).1
  obtain ⟨c, l, h1, h2, h3, h4⟩ := names_ok ⟨op, hlt⟩
  simp only [h, Option.some.injEq] at h1
  subst h1
  exact ⟨c, l, rfl, h2, fun x hx => ⟨(h3 x hx).1, (h3 x hx).2.1, (h3 x hx).2.2.1⟩, h4⟩

theorem Line.nobreak {T : Tools} {bs : Bytes} {i : Item} (h : Line T bs i) : NoBreak bs := by
  cases h with
  | blank h => exact h.nobreak
  | comment h h' => exact h.nobreak.app (.cons (by decide) h')
  | str h h' => exact h.nobreak.app (.cons (by decide) h')
  | count h h1 h2 h3 => exact h.nobreak.app (.cons (by decide) (h1.nobreak.app h3.nobreak))
  | label h h1 h2 h3 h4 => exact h.nobreak.app (.cons (by decide) (h1.nobreak.app (h2.nobreak.app (h3.nobreak.app h4.nobreak))))
  | ins0 h h1 h2 h3 h4 h5 =>
    obtain ⟨c, l, rfl, _, k, _⟩ := name_of h2
    exact h.nobreak.app (k.nobreak.app (h3.nobreak.app (h4.nobreak.app h5.nobreak)))
  | ins1 h h1 h2 h3 h4 h5 h6 h7 h8 h9 =>
    obtain ⟨c, l, rfl, _, k, _⟩ := name_of h2
    exact h.nobreak.app (k.nobreak.app (.cons (by rcases h3 with rfl | rfl <;> decide) (h5.nobreak.app (h7.nobreak.app (h8.nobreak.app h9.nobreak)))))

/-- The bytes of an argument in the first pass. -/
def AsmArg.raw (h : Endian) : AsmArg → Bytes
  | .word w => mem32 h w
  | .ref _ => mem32 h 0

/-- The substitution noted for an argument. -/
def AsmArg.note (m : List (Nat × Bytes)) (b : Nat) : AsmArg → List (Nat × Bytes)
  | .word _ => m
  | .ref l => FMap.set m b l

theorem addArg_ok {T : Tools} {op : Nat} {t : Bytes} {a : AsmArg} (h : ArgText T op t a) (hc : Clean t) (ht : t ≠ []) (h35 : 35 ≤ op) (h47 : op < 47) {st : A}
    (hcap : st.buf.length < st.cap) :
    ∃ c, (if op < 35 then (pure (some st) : Res (Option A)) else if op = 35 then addArg T T.strtof st (some t) else if op < 44 then addArg T strtoul32 st (some t) else addArgL T st (some t)) =
      .ok (some { st with
        buf := st.buf ++ a.raw T.endian, cap := c,
        labsubs := a.note st.labsubs st.buf.length }) ∧
      st.buf.length + 4 < c := by
  obtain ⟨x, xs, rfl⟩ : ∃ x xs, t = x :: xs := by
    cases t with
    | nil => exact absurd rfl ht
    | cons x xs => exact ⟨x, xs, rfl⟩
  have len : ∀ w, (mem32 T.endian w).length = 4 := by intro w; cases T.endian <;> rfl
  rw [if_neg (by omega)]
  cases h with
  | @int _ _ v h1 h2 h3 h4 =>
    rw [if_neg (by omega), if_pos (by omega)]
    simp only [addArg]
    rw [strtoul32_signed h3 h4]
    obtain ⟨c, p1, p2⟩ := put_ok hcap (mem32 T.endian (v % 4294967296).toNat)
    simp only [p1, Res.ok_bind, Res.pure_eq]
    exact ⟨c, rfl, by rw [len] at p2; exact p2⟩
  | @flt _ w h1 h2 =>
    rw [if_pos rfl]
    simp only [addArg]
    rw [h1]
    obtain ⟨c, p1, p2⟩ := put_ok hcap (mem32 T.endian w)
    simp only [p1, Res.ok_bind, Res.pure_eq]
    exact ⟨c, rfl, by rw [len] at p2; exact p2⟩
  | ref h1 h2 =>
    obtain ⟨c, p1, p2⟩ := put_ok (st := addSub st (x :: xs)) hcap (mem32 T.endian 0)
    rw [if_neg (by omega)]
    refine ⟨c, ?_, by rw [len] at p2; exact p2⟩
    by_cases h : op < 44
    · rw [if_pos h]
      simp only [addArg]
      rw [strtoul32_name hc h2]
      simp only [p1, Res.ok_bind, Res.pure_eq]
      rfl
    · rw [if_neg h]
      simp only [addArgL]
      simp only [p1, Res.ok_bind, Res.pure_eq]
      rfl
  | fref h1 =>
    obtain ⟨c, p1, p2⟩ := put_ok (st := addSub st (x :: xs)) hcap (mem32 T.endian 0)
    rw [if_pos rfl]
    simp only [addArg]
    rw [h1]
    simp only [p1, Res.ok_bind, Res.pure_eq]
    exact ⟨c, rfl, by rw [len] at p2; exact p2⟩

theorem line_ok {T : Tools} {bs : Bytes} {i : Item} (h : Line T bs i) {st : A} (hcap : st.buf.length < st.cap) :
    ∃ st', asmLine T (bs ++ [10]) st = .ok (some st') ∧ Post T.endian i st st' := by
  have hcs : cstr (bs ++ [10]) = bs ++ [10] := by
    refine cstr_eq fun hx => ?_
    rw [List.mem_append] at hx
    rcases hx with hx | hx
    · exact (h.nobreak 0 hx).1 rfl
    · revert hx; decide
  unfold asmLine
  rw [hcs]
  cases h with
  | blank h =>
    have : (bs ++ [10]).dropWhile isSpace = [] := by
      rw [List.dropWhile_append_of_pos h.space]
      rfl
    rw [this]
    exact ⟨st, rfl, ⟨by simp [Item.raw, Item.bytes], hcap, rfl, rfl, rfl⟩⟩
  | @comment ws r h h' =>
    rw [List.append_assoc, List.cons_append, dropSpaces h (by decide)]
    exact ⟨st, rfl, ⟨by simp [Item.raw, Item.bytes], hcap, rfl, rfl, rfl⟩⟩
  | @str ws s h h' =>
    rw [List.append_assoc, List.cons_append, dropSpaces h (by decide)]
    simp only [show ((39 : UInt8) = 35) = False by decide, if_false, if_true]
    rw [List.dropLast_concat]
    obtain ⟨c, p1, p2⟩ := put_ok hcap (s ++ [0])
    rw [p1]
    exact ⟨_, rfl, ⟨rfl, by simpa using p2, rfl, rfl, rfl⟩⟩
  | @count ws t ws' n h h1 h2 h3 =>
    rw [List.append_assoc, List.cons_append, List.append_assoc, dropSpaces h (by decide)]
    have dok := decimal_ok h1
    have hr : rtrim (33 :: (t ++ (ws' ++ [10]))) = 33 :: t := by
      refine rtrim_spaces (fun x hx => (digit_plain (dok.2.1 x (List.mem_of_getLast? hx))).1) fun x hx => ?_
      rw [List.mem_append, List.mem_singleton] at hx
      rcases hx with hx | rfl
      · exact h3.space x hx
      · decide
    simp only [show ((33 : UInt8) = 35) = False by decide, show ((33 : UInt8) = 39) = False by decide, if_false, if_true, hr, List.tail_cons]
    rw [strtol64_decimal h1 (by omega), Nat.mod_eq_of_lt h2]
    obtain ⟨c, p1, p2⟩ := put_ok hcap (mem16 T.endian n)
    rw [p1]
    exact ⟨_, rfl, ⟨rfl, by simpa using p2, rfl, rfl, rfl⟩⟩
  | @label ws l ws' dt ws'' d h h1 h2 h3 h4 =>
    have e : ws ++ 64 :: (l ++ (ws' ++ (dt ++ ws''))) ++ [10] = ws ++ 64 :: (l ++ (ws' ++ (dt ++ (ws'' ++ [10])))) := by simp only [List.append_assoc, List.cons_append]
    rw [e, dropSpaces h (by decide)]
    obtain ⟨sp, k1, k2, k3⟩ := split_line (c := 64) (by decide) (by decide) h1.plain h1.last h2 h3 h4 st
    simp only [show ((64 : UInt8) = 35) = False by decide, show ((64 : UInt8) = 39) = False by decide, show ((64 : UInt8) = 33) = False by decide, if_false, if_true, k2, k3]
    simp only [Option.getD_some, rtrim_spaces h1.last k1.space]
    exact ⟨_, rfl, ⟨by simp [Item.raw, Item.bytes], hcap, rfl, rfl, rfl⟩⟩
  | @ins0 ws nm ws' dt ws'' op d h h1 h2 h3 h4 h5 =>
    obtain ⟨c, l, rfl, n1, n2, n3⟩ := name_of h2
    have e : ws ++ (c :: l ++ (ws' ++ (dt ++ ws''))) ++ [10] = ws ++ c :: (l ++ (ws' ++ (dt ++ (ws'' ++ [10])))) := by simp only [List.append_assoc, List.cons_append]
    have n2' : Clean l := fun x hx => n2 x (by simp [hx])
    rw [e, dropSpaces h (n2 c (by simp)).1]
    obtain ⟨sp, k1, k2, k3⟩ := split_line (c := c) (n2 c (by simp)).1 (n2.plain c (by simp)) n2'.plain n2'.last h3 h4 h5 st
    simp only [n3.1, n3.2.1, n3.2.2.1, n3.2.2.2, if_false, k2, k3]
    have := strsep_spaces n2 k1
    rw [List.cons_append] at this
    rw [this, Option.getD_some]
    unfold addInstr
    rw [n1]
    obtain ⟨cp, p1, p2⟩ := put_ok (st := { st with dbg := d.toList.foldl (fun d p => infoSet d st.buf.length p) st.dbg }) hcap [byte op]
    simp only [p1, Res.ok_bind, if_pos h1]
    exact ⟨_, rfl, ⟨rfl, by simpa using p2, rfl, rfl, rfl⟩⟩
  | @ins1 ws nm t ws' dt ws'' op s a d h h1 h2 h3 h4 h5 h6 h7 h8 h9 =>
    obtain ⟨c, l, rfl, n1, n2, n3⟩ := name_of h2
    have hlt : op < 47 := (List.getElem?_eq_some_iff.mp h2).1
    have e : ws ++ (c :: l ++ s :: (t ++ (ws' ++ (dt ++ ws'')))) ++ [10] = ws ++ c :: ((l ++ s :: t) ++ (ws' ++ (dt ++ (ws'' ++ [10])))) := by
      simp only [List.append_assoc, List.cons_append]
    have n2' : Clean l := fun x hx => n2 x (by simp [hx])
    rw [e, dropSpaces h (n2 c (by simp)).1]
    obtain ⟨sp, k1, k2, k3⟩ := split_line (c := c) (l := l ++ s :: t) (n2 c (by simp)).1 (n2.plain c (by simp)) (fun x hx => by
      rw [List.mem_append, List.mem_cons] at hx
      rcases hx with hx | rfl | hx
      · exact n2'.plain x hx
      · rcases h3 with rfl | rfl <;> decide
      · exact h5.plain x hx) (fun x hx => by
      refine h5.last x ?_
      rw [List.getLast?_append, List.getLast?_cons] at hx
      cases hg : t.getLast? with
      | none => exact absurd (List.getLast?_eq_none_iff.mp hg) h4
      | some z => rw [hg] at hx; simpa using hx) h7 h8 h9 st
    simp only [n3.1, n3.2.1, n3.2.2.1, n3.2.2.2, if_false, k2, k3]
    have hsep : strsep [32, 10, 9] (some (c :: (l ++ s :: t ++ sp))) = (some (c :: l), some (t ++ sp)) := by
      have e' : c :: (l ++ s :: t ++ sp) = (c :: l) ++ s :: (t ++ sp) := by simp only [List.append_assoc, List.cons_append]
      rw [e']
      refine strsep_hit (fun x hx k => ?_) (by rcases h3 with rfl | rfl <;> decide)
      have := (n2 x hx).1
      simp only [List.mem_cons, List.not_mem_nil, or_false] at k
      rcases k with rfl | rfl | rfl <;> cases this
    rw [hsep]
    simp only [Option.getD_some, strsep_spaces h5 k1]
    unfold addInstr
    rw [n1]
    obtain ⟨cp, p1, p2⟩ := put_ok (st := { st with dbg := d.toList.foldl (fun d p => infoSet d st.buf.length p) st.dbg }) hcap [byte op]
    simp only [p1, Res.ok_bind]
    obtain ⟨cq, q1, q2⟩ := addArg_ok h6 h5 h4 h1 hlt (st := { buf := st.buf ++ [byte op], cap := cp, labpos := st.labpos, labsubs := st.labsubs, dbg := d.toList.foldl (fun d p => infoSet d st.buf.length p) st.dbg }) (by simpa using p2)
    rw [q1]
    refine ⟨_, rfl, ⟨?_, ?_, rfl, ?_, rfl⟩⟩
    · cases a <;> simp [Item.raw, Item.bytes, AsmArg.raw]
    · have len : ∀ w, (mem32 T.endian w).length = 4 := by intro w; cases T.endian <;> rfl
      cases a <;> simpa [len, AsmArg.raw] using q2
    · cases a with
      | word w => rfl
      | ref l => simp [Item.subs, AsmArg.note]

/-! ### The first pass -/

theorem raw_length (h : Endian) (look : Bytes → Nat) (i : Item) : (i.bytes h look).length = i.size := by
  have l4 : ∀ w, (mem32 h w).length = 4 := by intro w; cases h <;> rfl
  have l2 : ∀ w, (mem16 h w).length = 2 := by intro w; cases h <;> rfl
  cases i with
  | blank => rfl
  | str s => simp [Item.bytes, Item.size]
  | count n => simp [Item.bytes, Item.size, l2]
  | label l d => rfl
  | ins op a d =>
    cases a with
    | none => rfl
    | some a => cases a <;> simp [Item.bytes, Item.size, l4]

theorem prog_length (h : Endian) (look : Bytes → Nat) (is : List Item) : (is.flatMap (Item.bytes h look)).length = progSize is := by
  induction is with
  | nil => rfl
  | cons i is ih => rw [List.flatMap_cons, List.length_append, raw_length, ih]; rfl

theorem progSize_append (a b : List Item) : progSize (a ++ b) = progSize a + progSize b := by simp [progSize]

theorem progSize_cons (i : Item) (b : List Item) : progSize (i :: b) = i.size + progSize b := by simp [progSize]

/-- The substitutions of a program. -/
def subsFrom (b : Nat) : List Item → List (Nat × Bytes)
  | [] => []
  | i :: is => i.subs b ++ subsFrom (b + i.size) is

theorem subsFrom_append (b : Nat) (x y : List Item) : subsFrom b (x ++ y) = subsFrom b x ++ subsFrom (b + progSize x) y := by
  induction x generalizing b with
  | nil => rfl
  | cons i x ih =>
    show i.subs b ++ subsFrom (b + i.size) (x ++ y) = (i.subs b ++ subsFrom (b + i.size) x) ++ _
    rw [ih, progSize_cons, List.append_assoc, Nat.add_assoc]

theorem subs_range {b : Nat} {i : Item} {e : Nat × Bytes} (h : e ∈ i.subs b) : b ≤ e.1 ∧ e.1 + 4 ≤ b + i.size := by
  cases i with
  | ins op a d =>
    cases a with
    | none => cases h
    | some a =>
      cases a with
      | word w => cases h
      | ref l =>
        simp only [Item.subs, List.mem_singleton] at h
        subst h
        simp only [Item.size]
        omega
  | _ => cases h

theorem subsFrom_range {b : Nat} {is : List Item} {e : Nat × Bytes} (h : e ∈ subsFrom b is) : b ≤ e.1 ∧ e.1 + 4 ≤ b + progSize is := by
  induction is generalizing b with
  | nil => cases h
  | cons i is ih =>
    rw [progSize_cons]
    rcases List.mem_append.mp h with h | h
    · have := subs_range h; omega
    · have := ih h; omega

theorem subsFrom_disjoint (b : Nat) (is : List Item) : (subsFrom b is).Pairwise (fun x y => x.1 + 4 ≤ y.1 ∨ y.1 + 4 ≤ x.1) := by
  induction is generalizing b with
  | nil => exact List.Pairwise.nil
  | cons i is ih =>
    refine List.pairwise_append.mpr ⟨?_, ih _, fun x hx y hy => ?_⟩
    · cases i with
      | ins op a d =>
        cases a with
        | none => exact List.Pairwise.nil
        | some a =>
          cases a with
          | word w => exact List.Pairwise.nil
          | ref l => exact List.pairwise_singleton _ _
      | _ => exact List.Pairwise.nil
    · have := subs_range hx
      have := subsFrom_range hy
      omega

theorem mem_subsFrom {b : Nat} {is : List Item} {l : Bytes} : (∃ p, (p, l) ∈ subsFrom b is) ↔ Uses is l := by
  induction is generalizing b with
  | nil => exact ⟨fun ⟨p, h⟩ => (by cases h), fun ⟨op, d, h⟩ => (by cases h)⟩
  | cons i is ih =>
    constructor
    · rintro ⟨p, h⟩
      rcases List.mem_append.mp h with h | h
      · cases i with
        | ins op a d =>
          cases a with
          | none => cases h
          | some a =>
            cases a with
            | word w => cases h
            | ref l' =>
              simp only [Item.subs, List.mem_singleton, Prod.mk.injEq] at h
              exact ⟨op, d, by rw [h.2]; simp⟩
        | _ => cases h
      · obtain ⟨op, d, k⟩ := ih.mp ⟨p, h⟩
        exact ⟨op, d, List.mem_cons_of_mem _ k⟩
    · rintro ⟨op, d, h⟩
      rcases List.mem_cons.mp h with h | h
      · subst h
        exact ⟨b + 1, List.mem_append_left _ (by simp [Item.subs])⟩
      · obtain ⟨p, k⟩ := (ih (b := b + i.size)).mpr ⟨op, d, h⟩
        exact ⟨p, List.mem_append_right _ k⟩

theorem labelAt_snoc (is : List Item) (i : Item) (l : Bytes) (p : Nat) :
    LabelAt (is ++ [i]) l p ↔ (∃ d, i = .label l d ∧ p = progSize is) ∨ ((∀ d, i ≠ .label l d) ∧ LabelAt is l p) := by
  constructor
  · rintro ⟨pre, d, post, h1, h2, h3⟩
    rcases List.eq_nil_or_concat post with rfl | ⟨q, x, rfl⟩
    · obtain ⟨k1, k2⟩ := List.append_inj' h1 rfl
      refine Or.inl ⟨d, (List.cons_eq_cons.mp k2).1, by rw [h2, k1]⟩
    · rw [List.concat_eq_append, ← List.cons_append, ← List.append_assoc] at h1
      obtain ⟨k1, k2⟩ := List.append_inj' h1 rfl
      have k2 := (List.cons_eq_cons.mp k2).1
      refine Or.inr ⟨fun d' k => h3 d' (by rw [← k, k2]; simp), pre, d, q, k1, h2, fun d' k => h3 d' (by simp [k])⟩
  · rintro (⟨d, rfl, rfl⟩ | ⟨h, pre, d, post, rfl, rfl, h3⟩)
    · exact ⟨is, d, [], rfl, rfl, by simp⟩
    · refine ⟨pre, d, post ++ [i], by simp, rfl, fun d' k => ?_⟩
      rw [List.mem_append, List.mem_singleton] at k
      rcases k with k | k
      · exact h3 d' k
      · exact h d' k.symm

theorem dbgOf_snoc (b : Nat) (is : List Item) (i : Item) : dbgOf b (is ++ [i]) = dbgOf b is ++ i.dbg.toList.map (fun p => (((b + progSize is : Nat) : Int), p)) := by
  induction is generalizing b with
  | nil =>
    cases i with
    | label l d => cases d <;> rfl
    | ins op a d => cases d <;> rfl
    | _ => rfl
  | cons j is ih =>
    rw [List.cons_append, progSize_cons]
    have e : ∀ n, b + (n + progSize is) = b + n + progSize is := fun n => by omega
    cases j with
    | label l d =>
      cases d with
      | none => simp only [dbgOf, ih, e]
      | some p => simp only [dbgOf, ih, Item.size, Nat.zero_add, List.cons_append]
    | ins op a d =>
      cases d with
      | none => simp only [dbgOf, ih, e]
      | some p => simp only [dbgOf, ih, e, List.cons_append]
    | _ => simp only [dbgOf, ih, e]

/-- The state after some items. -/
structure Passed (T : Tools) (is : List Item) (st : A) : Prop where
  buf : st.buf = is.flatMap (Item.raw T.endian)
  cap : st.buf.length < st.cap
  labpos : ∀ l p, FMap.get st.labpos l = some p ↔ LabelAt is l p
  labsubs : st.labsubs = subsFrom 0 is
  dbg : st.dbg = recordAll (dbgOf 0 is) Debug.new

theorem set_fresh {m : List (Nat × Bytes)} {k : Nat} (h : ∀ e ∈ m, e.1 ≠ k) (v : Bytes) : FMap.set m k v = m ++ [(k, v)] := by
  unfold FMap.set
  rw [List.filter_eq_self.mpr (fun e he => by simp [h e he])]

theorem Passed.step {T : Tools} {is : List Item} {st st' : A} (h : Passed T is st) {i : Item} (p : Post T.endian i st st') : Passed T (is ++ [i]) st' := by
  have hlen : st.buf.length = progSize is := by rw [h.buf]; exact prog_length _ _ is
  refine ⟨?_, p.cap, fun l q => ?_, ?_, ?_⟩
  · rw [p.buf, h.buf, List.flatMap_append]
    simp
  · rw [labelAt_snoc, p.labpos]
    cases i with
    | label l' d =>
      simp only [Item.defs, List.foldl_cons, List.foldl_nil, FMap.get_set]
      by_cases e : l = l'
      · subst e
        simp only [if_true, Option.some.injEq, hlen]
        constructor
        · intro k; exact Or.inl ⟨d, rfl, k.symm⟩
        · rintro (⟨_, _, k⟩ | ⟨k, _⟩)
          · exact k.symm
          · exact absurd rfl (k d)
      · rw [if_neg e, h.labpos]
        constructor
        · intro k; exact Or.inr ⟨fun d' k' => e (by cases k'; rfl), k⟩
        · rintro (⟨d', k, _⟩ | ⟨_, k⟩)
          · exact absurd (by cases k; rfl) e
          · exact k
    | _ =>
      simp only [Item.defs, List.foldl_nil]
      rw [h.labpos]
      constructor
      · intro k; exact Or.inr ⟨fun d' k' => (by cases k'), k⟩
      · rintro (⟨d', k, _⟩ | ⟨_, k⟩)
        · cases k
        · exact k
  · rw [p.labsubs, subsFrom_append, h.labsubs, hlen]
    have fresh : ∀ e ∈ subsFrom 0 is, e.1 ≠ progSize is + 1 := by
      intro e he k
      have := subsFrom_range he
      omega
    cases i with
    | ins op a d =>
      cases a with
      | none => simp [Item.subs, subsFrom]
      | some a =>
        cases a with
        | word w => simp [Item.subs, subsFrom]
        | ref l =>
          simp only [Item.subs, List.foldl_cons, List.foldl_nil, subsFrom, List.append_nil, Nat.zero_add]
          exact set_fresh fresh l
    | _ => simp [Item.subs, subsFrom]
  · rw [p.dbg, dbgOf_snoc, h.dbg, hlen]
    unfold recordAll
    rw [List.foldl_append]
    cases i.dbg with
    | none => rfl
    | some q => simp

theorem pass1_ok {T : Tools} {file : Bytes} {is : List Item} (h : FileOf T file is) : ∀ {before : List Item} {st : A}, Passed T before st →
    ∃ st', pass1 T (lines file) st = .ok (some st') ∧ Passed T (before ++ is) st' := by
  induction h with
  | nil =>
    intro before st h
    exact ⟨st, rfl, by rw [List.append_nil]; exact h⟩
  | @cons bs rest i is hl hf ih =>
    intro before st h
    rw [lines_line (fun c hc => (hl.nobreak c hc).2)]
    obtain ⟨st1, k1, k2⟩ := line_ok hl h.cap
    obtain ⟨st2, k3, k4⟩ := ih (h.step k2)
    refine ⟨st2, ?_, by rw [List.append_assoc] at k4; exact k4⟩
    unfold pass1
    rw [k1]
    exact k3

/-! ### The second pass -/

theorem patch_ok {T : Tools} {buf : Bytes} {pos v : Nat} (h : pos + 4 ≤ buf.length) : ∃ b, patch T buf pos v = .ok b ∧ b.length = buf.length ∧
    ∀ i, b[i]? = if pos ≤ i ∧ i < pos + 4 then (mem32 T.endian v)[i - pos]? else buf[i]? := by
  have l4 : ∀ w, (mem32 T.endian w).length = 4 := by intro w; cases T.endian <;> rfl
  refine ⟨_, if_pos h, ?_, fun i => ?_⟩
  · rw [List.length_append, List.length_append, List.length_take, l4, List.length_drop]
    omega
  · have ht : (buf.take pos).length = pos := by rw [List.length_take]; omega
    by_cases h1 : i < pos
    · rw [if_neg (by omega), List.append_assoc, List.getElem?_append_left (by omega), List.getElem?_take_of_lt h1]
    · by_cases h2 : i < pos + 4
      · rw [if_pos ⟨by omega, h2⟩, List.getElem?_append_left (by rw [List.length_append, ht, l4]; exact h2), List.getElem?_append_right (by omega), ht]
      · rw [if_neg (by omega), List.getElem?_append_right (by rw [List.length_append, ht, l4]; omega), List.length_append, ht, l4, List.getElem?_drop]
        congr 1
        omega

theorem patch_comm {T : Tools} {buf : Bytes} {p q v w : Nat} (hp : p + 4 ≤ buf.length) (hq : q + 4 ≤ buf.length) (hd : p + 4 ≤ q ∨ q + 4 ≤ p) {b c : Bytes}
    (hb : patch T buf p v = .ok b) (hc : patch T buf q w = .ok c) : patch T b q w = patch T c p v := by
  obtain ⟨b', k1, k2, k3⟩ := patch_ok (T := T) (v := v) hp
  obtain ⟨c', m1, m2, m3⟩ := patch_ok (T := T) (v := w) hq
  rw [hb] at k1
  cases k1
  rw [hc] at m1
  cases m1
  obtain ⟨x, x1, x2, x3⟩ := patch_ok (T := T) (buf := b) (v := w) (pos := q) (by omega)
  obtain ⟨y, y1, y2, y3⟩ := patch_ok (T := T) (buf := c) (v := v) (pos := p) (by omega)
  rw [x1, y1]
  congr 1
  refine List.ext_getElem? fun i => ?_
  rw [x3, y3, k3, m3]
  by_cases h1 : q ≤ i ∧ i < q + 4
  · rw [if_pos h1, if_neg (show ¬ (p ≤ i ∧ i < p + 4) by omega), if_pos h1]
  · rw [if_neg h1, if_neg h1]

/-- The order of the substitutions does not matter. -/
theorem labsub_perm {T : Tools} {labpos : List (Bytes × Nat)} {s s' : List (Nat × Bytes)} (h : s.Perm s') : ∀ (buf : Bytes), (∀ e ∈ s, e.1 + 4 ≤ buf.length) →
    s.Pairwise (fun x y => x.1 + 4 ≤ y.1 ∨ y.1 + 4 ≤ x.1) → labsub T labpos s buf = labsub T labpos s' buf := by
  induction h with
  | nil => intros; rfl
  | @cons x l l' _ ih =>
    intro buf hr hd
    obtain ⟨p, lab⟩ := x
    unfold labsub
    split
    · rfl
    · split
      · rfl
      · obtain ⟨b, k1, k2, _⟩ := patch_ok (T := T) (v := by assumption) (hr (p, lab) (by simp))
        rw [k1, Res.ok_bind, Res.ok_bind]
        exact ih b (fun e he => by rw [k2]; exact hr e (by simp [he])) (List.pairwise_cons.mp hd).2
  | @swap x y l =>
    intro buf hr hd
    obtain ⟨p, lp⟩ := x
    obtain ⟨q, lq⟩ := y
    have hq := hr (q, lq) (by simp)
    have hp := hr (p, lp) (by simp)
    have hpq := (List.pairwise_cons.mp hd).1 (p, lp) (by simp)
    simp only at hp hq hpq
    have key : ∀ v w : Nat, ∃ b c, patch T buf p v = .ok b ∧ patch T buf q w = .ok c ∧ b.length = buf.length ∧ c.length = buf.length ∧ patch T b q w = patch T c p v := by
      intro v w
      obtain ⟨b, k1, k2, _⟩ := patch_ok (T := T) (v := v) hp
      obtain ⟨c, m1, m2, _⟩ := patch_ok (T := T) (v := w) hq
      exact ⟨b, c, k1, m1, k2, m2, patch_comm hp hq (by omega) k1 m1⟩
    simp only [labsub]
    cases hgp : FMap.get labpos lp with
    | none =>
      cases hgq : FMap.get labpos lq with
      | none => rfl
      | some w =>
        obtain ⟨b, c, k1, k2, k3, k4, k5⟩ := key 0 w
        simp only [k2, Res.ok_bind]
        split <;> rfl
    | some v =>
      cases hgq : FMap.get labpos lq with
      | none =>
        obtain ⟨b, c, k1, k2, k3, k4, k5⟩ := key v 0
        simp only [k1, Res.ok_bind]
        split <;> rfl
      | some w =>
        obtain ⟨b, c, k1, k2, k3, k4, k5⟩ := key v w
        simp only [k1, k2, Res.ok_bind, k3, k4, k5]
        by_cases a1 : v ≥ buf.length
        · simp only [if_pos a1]
          split <;> rfl
        · simp only [if_neg a1]
  | trans h1 h2 ih1 ih2 =>
    intro buf hr hd
    rw [ih1 buf hr hd]
    exact ih2 buf (fun e he => hr e (h1.mem_iff.mpr he)) ((h1.pairwise_iff (fun hab => hab.symm)).mp hd)

theorem labsub_bad {T : Tools} {labpos : List (Bytes × Nat)} : ∀ (s : List (Nat × Bytes)) (buf : Bytes), (∀ e ∈ s, e.1 + 4 ≤ buf.length) →
    (∃ e ∈ s, ¬ ∃ p, FMap.get labpos e.2 = some p ∧ p < buf.length) → labsub T labpos s buf = .ok none
  | [], _, _, h => by obtain ⟨e, he, _⟩ := h; cases he
  | (p, lab) :: s, buf, hr, h => by
    unfold labsub
    cases hg : FMap.get labpos lab with
    | none => rfl
    | some v =>
      simp only
      by_cases a : v ≥ buf.length
      · rw [if_pos a]
      · rw [if_neg a]
        obtain ⟨b, k1, k2, _⟩ := patch_ok (T := T) (v := v) (hr (p, lab) (by simp))
        rw [k1, Res.ok_bind]
        refine labsub_bad s b (fun e he => by rw [k2]; exact hr e (by simp [he])) ?_
        obtain ⟨e, he, hb⟩ := h
        rw [k2]
        rcases List.mem_cons.mp he with rfl | he
        · exact absurd ⟨v, hg, by omega⟩ hb
        · exact ⟨e, he, hb⟩

theorem patch_at {T : Tools} (pre post : Bytes) (v w : Nat) : patch T (pre ++ (mem32 T.endian w ++ post)) pre.length v = .ok (pre ++ (mem32 T.endian v ++ post)) := by
  have l4 : ∀ w, (mem32 T.endian w).length = 4 := by intro w; cases T.endian <;> rfl
  unfold patch
  rw [if_pos (by simp only [List.length_append, l4]; omega), List.take_left, ← List.drop_drop, List.drop_left]
  congr 1
  rw [List.append_assoc]
  congr 2
  have := List.drop_left (l₁ := mem32 T.endian w) (l₂ := post)
  rw [l4] at this
  exact this

theorem labsub_ok {T : Tools} {labpos : List (Bytes × Nat)} {look : Bytes → Nat} : ∀ (is : List Item) (pre : Bytes) (n : Nat), n = pre.length + progSize is →
    (∀ l, Uses is l → FMap.get labpos l = some (look l) ∧ look l < n) →
    labsub T labpos (subsFrom pre.length is) (pre ++ is.flatMap (Item.raw T.endian)) = .ok (some (pre ++ is.flatMap (Item.bytes T.endian look)))
  | [], pre, n, _, _ => by simp [subsFrom, labsub]
  | i :: is, pre, n, hn, hu => by
    have hu' : ∀ l, Uses is l → FMap.get labpos l = some (look l) ∧ look l < n := fun l ⟨op, d, h⟩ => hu l ⟨op, d, by simp [h]⟩
    rw [progSize_cons] at hn
    rw [List.flatMap_cons, List.flatMap_cons]
    have plain : i.subs pre.length = [] → i.raw T.endian = i.bytes T.endian look →
        labsub T labpos (subsFrom pre.length (i :: is)) (pre ++ (i.raw T.endian ++ is.flatMap (Item.raw T.endian))) =
          .ok (some (pre ++ (i.bytes T.endian look ++ is.flatMap (Item.bytes T.endian look)))) := by
      intro h1 h2
      have hlen : (pre ++ i.raw T.endian).length = pre.length + i.size := by rw [List.length_append, Item.raw, raw_length]
      have := labsub_ok (T := T) is (pre ++ i.raw T.endian) n (by rw [hlen]; omega) hu'
      rw [hlen, List.append_assoc] at this
      show labsub T labpos (i.subs pre.length ++ subsFrom (pre.length + i.size) is) _ = _
      rw [h1, List.nil_append, this, h2, List.append_assoc]
    cases i with
    | ins op a d =>
      cases a with
      | none => exact plain rfl rfl
      | some a =>
        cases a with
        | word w => exact plain rfl rfl
        | ref l =>
          obtain ⟨g1, g2⟩ := hu l ⟨op, d, by simp⟩
          show labsub T labpos ((pre.length + 1, l) :: subsFrom (pre.length + 5) is) (pre ++ ((byte op :: mem32 T.endian 0) ++ is.flatMap (Item.raw T.endian))) =
            .ok (some (pre ++ ((byte op :: mem32 T.endian (look l)) ++ is.flatMap (Item.bytes T.endian look))))
          have l4 : ∀ w, (mem32 T.endian w).length = 4 := by intro w; cases T.endian <;> rfl
          have e : ∀ w r, pre ++ ((byte op :: mem32 T.endian w) ++ r) = (pre ++ [byte op]) ++ (mem32 T.endian w ++ r) := by intro w r; simp
          have hl1 : (pre ++ [byte op]).length = pre.length + 1 := by simp
          unfold labsub
          rw [g1]
          simp only
          rw [if_neg (by
            have : (is.flatMap (Item.raw T.endian)).length = progSize is := prog_length _ _ is
            simp only [List.length_append, List.length_cons, l4, this]
            simp only [Item.size] at hn
            omega)]
          rw [e, ← hl1, patch_at, Res.ok_bind]
          have hl5 : ((pre ++ [byte op]) ++ mem32 T.endian (look l)).length = pre.length + 5 := by simp [l4]
          have := labsub_ok (T := T) is ((pre ++ [byte op]) ++ mem32 T.endian (look l)) n (by rw [hl5]; simp only [Item.size] at hn; omega) hu'
          rw [hl5, List.append_assoc] at this
          rw [this, e]
          simp only [List.append_assoc]
    | blank => exact plain rfl rfl
    | str s => exact plain rfl rfl
    | count m => exact plain rfl rfl
    | label l d => exact plain rfl rfl

/-- **C40**: a well-formed file is assembled to the bytecode of its items, every label replaced by its position, and the debug
information of its lines is recorded; in whatever order the labels are replaced. -/
theorem C40_assembles (T : Tools) (order : List (Nat × Bytes) → List (Nat × Bytes)) (ho : ∀ l, (order l).Perm l) (file : Bytes) (is : List Item) (hf : FileOf T file is)
    (look : Bytes → Nat) (hl : ∀ l, Uses is l → LabelAt is l (look l) ∧ look l < progSize is) :
    asm T order file = .ok (some (is.flatMap (Item.bytes T.endian look), recordAll (dbgOf 0 is) Debug.new)) := by
  obtain ⟨st, k1, k2⟩ := pass1_ok hf (before := []) (st := ⟨[], 256, [], [], Debug.new⟩) ⟨rfl, by decide, fun l p => ⟨fun h => (by cases h), fun ⟨pre, d, post, h, _⟩ => (by cases pre <;> cases h)⟩, rfl, rfl⟩
  rw [List.nil_append] at k2
  unfold asm
  rw [k1, Res.ok_bind]
  simp only
  have hlen : st.buf.length = progSize is := by rw [k2.buf]; exact prog_length _ _ is
  have hr : ∀ e ∈ order (subsFrom 0 is), e.1 + 4 ≤ st.buf.length := fun e he => by
    have := subsFrom_range ((ho _).mem_iff.mp he)
    omega
  rw [k2.labsubs, labsub_perm (ho _) _ hr (((ho _).pairwise_iff (fun hab => hab.symm)).mpr (subsFrom_disjoint 0 is))]
  · have := labsub_ok (T := T) (labpos := st.labpos) (look := look) is [] (progSize is) (by simp) (fun l hu => ⟨(k2.labpos _ _).mpr (hl l hu).1, (hl l hu).2⟩)
    rw [List.nil_append, ← k2.buf, List.nil_append] at this
    rw [show ([] : Bytes).length = 0 from rfl] at this
    rw [this, Res.ok_bind, k2.dbg]
    rfl

/-- **C40**: a label that is used but not defined, or is defined only at the end of the program, is an error. -/
theorem C40_unknown (T : Tools) (order : List (Nat × Bytes) → List (Nat × Bytes)) (ho : ∀ l, (order l).Perm l) (file : Bytes) (is : List Item) (hf : FileOf T file is)
    (l : Bytes) (hu : Uses is l) (hl : ¬ ∃ p, LabelAt is l p ∧ p < progSize is) : asm T order file = .ok none := by
  obtain ⟨st, k1, k2⟩ := pass1_ok hf (before := []) (st := ⟨[], 256, [], [], Debug.new⟩) ⟨rfl, by decide, fun l p => ⟨fun h => (by cases h), fun ⟨pre, d, post, h, _⟩ => (by cases pre <;> cases h)⟩, rfl, rfl⟩
  rw [List.nil_append] at k2
  unfold asm
  rw [k1, Res.ok_bind]
  simp only
  have hlen : st.buf.length = progSize is := by rw [k2.buf]; exact prog_length _ _ is
  obtain ⟨p, hp⟩ := (mem_subsFrom (b := 0)).mpr hu
  have hr : ∀ e ∈ order (subsFrom 0 is), e.1 + 4 ≤ st.buf.length := fun e he => by
    have := subsFrom_range ((ho _).mem_iff.mp he)
    omega
  rw [k2.labsubs, labsub_bad _ _ hr ⟨(p, l), (ho _).mem_iff.mpr hp, fun ⟨q, h1, h2⟩ => hl ⟨q, (k2.labpos _ _).mp h1, by omega⟩⟩]
  rfl

/-! ### Reading back -/

theorem toNat_byte' (x : Nat) : (byte (x % 256)).toNat = x % 256 := by
  simp [byte]

theorem rd_at {buf : Bytes} (pre mid post : Bytes) (hb : buf = pre ++ (mid ++ post)) (i : Nat) (b : UInt8) (h : mid[i]? = some b) : rd buf (pre.length + i) = .ok b.toNat := by
  rw [hb, ← List.append_assoc]
  exact rd_mid pre mid post i b h

theorem rd32_mem32 (h : Endian) (pre post : Bytes) {w : Nat} (hw : w < 4294967296) : rd32 h (pre ++ (mem32 h w ++ post)) pre.length = .ok w := by
  unfold rd32
  cases h with
  | little =>
    rw [show rd (pre ++ (mem32 .little w ++ post)) pre.length = _ from rd_at pre _ post rfl 0 _ rfl, rd_at pre _ post rfl 1 _ rfl,
      rd_at pre _ post rfl 2 _ rfl, rd_at pre _ post rfl 3 _ rfl]
    simp only [Res.ok_bind, Res.pure_eq, toNat_byte']
    congr 1
    omega
  | big =>
    rw [show rd (pre ++ (mem32 .big w ++ post)) pre.length = _ from rd_at pre _ post rfl 0 _ rfl, rd_at pre _ post rfl 1 _ rfl,
      rd_at pre _ post rfl 2 _ rfl, rd_at pre _ post rfl 3 _ rfl]
    simp only [Res.ok_bind, Res.pure_eq, toNat_byte']
    congr 1
    omega

theorem rd16_mem16 (h : Endian) (post : Bytes) {n : Nat} (hn : n < 65536) : rd16 h (mem16 h n ++ post) 0 = .ok n := by
  cases h with
  | little =>
    show Res.ok ((byte (n % 256)).toNat + 256 * (byte (n / 256 % 256)).toNat) = _
    rw [toNat_byte', toNat_byte']
    congr 1
    omega
  | big =>
    show Res.ok ((byte (n % 256)).toNat + 256 * (byte (n / 256 % 256)).toNat) = _
    rw [toNat_byte', toNat_byte']
    congr 1
    omega

/-- What the grammar guarantees about an item. -/
def Item.Fine : Item → Prop
  | .str s => ∀ c ∈ s, c ≠ 0
  | .count n => n < 65536
  | .ins op none _ => op < 35
  | .ins op (some (.word w)) _ => 35 ≤ op ∧ op < 47 ∧ w < 4294967296
  | .ins op (some (.ref _)) _ => 35 ≤ op ∧ op < 47
  | _ => True

theorem Line.fine {T : Tools} {bs : Bytes} {i : Item} (h : Line T bs i) : i.Fine := by
  cases h with
  | blank => trivial
  | comment => trivial
  | str _ h => exact fun c hc => (h c hc).1
  | count _ _ h => exact h
  | label => trivial
  | ins0 _ h => exact h
  | @ins1 ws nm t ws' dt ws'' op s a d h1 h2 h3 h4 h5 h6 h7 =>
    have h47 : op < 47 := by
      have := List.getElem?_eq_some_iff.mp h3
      exact this.1
    cases h7 with
    | int => exact ⟨h2, h47, by omega⟩
    | flt => exact ⟨h2, h47, by assumption⟩
    | ref => exact ⟨h2, h47⟩
    | fref => exact ⟨h2, h47⟩

theorem FileOf.fine {T : Tools} {file : Bytes} {is : List Item} (h : FileOf T file is) : ∀ i ∈ is, i.Fine := by
  induction h with
  | nil => intro i hi; cases hi
  | cons hl _ ih =>
    intro i hi
    rcases List.mem_cons.mp hi with rfl | hi
    · exact hl.fine
    · exact ih i hi

/-- Items of the header, after the count. -/
def Item.inHeader : Item → Prop
  | .blank => True
  | .str _ => True
  | _ => False

/-- Items of the code. -/
def Item.inCode : Item → Prop
  | .str _ => False
  | .count _ => False
  | _ => True

theorem deasmStrings_ok (h : Endian) (look : Bytes → Nat) (post : Bytes) : ∀ (hs : List Item) (pre : Bytes), (∀ i ∈ hs, i.inHeader) → (∀ i ∈ hs, i.Fine) →
    deasmStrings (pre ++ (hs.flatMap (Item.bytes h look) ++ post)) (stringsOf hs).length pre.length = .ok (some (stringsOf hs, pre.length + progSize hs))
  | [], pre, _, _ => rfl
  | .blank :: hs, pre, h1, h2 => by
    have := deasmStrings_ok h look post hs pre (fun i hi => h1 i (by simp [hi])) (fun i hi => h2 i (by simp [hi]))
    rw [List.flatMap_cons, progSize_cons]
    simpa [Item.bytes, Item.size, stringsOf] using this
  | .str s :: hs, pre, h1, h2 => by
    have hl : (pre ++ (s ++ [0])).length = pre.length + s.length + 1 := by simp; omega
    have := deasmStrings_ok h look post hs (pre ++ (s ++ [0])) (fun i hi => h1 i (by simp [hi])) (fun i hi => h2 i (by simp [hi]))
    rw [hl] at this
    have hs0 : ∀ c ∈ s, c ≠ 0 := h2 (.str s) (by simp)
    rw [List.flatMap_cons, progSize_cons]
    have e : pre ++ (Item.bytes h look (.str s) ++ hs.flatMap (Item.bytes h look) ++ post) = (pre ++ (s ++ [0])) ++ (hs.flatMap (Item.bytes h look) ++ post) := by
      simp [Item.bytes]
    have et : ((pre ++ (Item.bytes h look (.str s) ++ hs.flatMap (Item.bytes h look) ++ post)).drop pre.length).takeWhile (· ≠ 0) = s := by
      rw [List.drop_left]
      simp only [Item.bytes, List.append_assoc, List.singleton_append]
      rw [List.takeWhile_append_of_pos (by intro c hc; simpa using hs0 c hc)]
      simp
    have el : (pre ++ (Item.bytes h look (.str s) ++ hs.flatMap (Item.bytes h look) ++ post)).length > pre.length + s.length := by
      rw [e, List.length_append, hl]; omega
    show deasmStrings _ ((stringsOf hs).length + 1) pre.length = _
    unfold deasmStrings
    rw [if_pos (by omega)]
    have ec : cstrAt (pre ++ (Item.bytes h look (.str s) ++ hs.flatMap (Item.bytes h look) ++ post)) pre.length = .ok s := by
      unfold cstrAt
      simp only [et]
      rw [if_pos el]
    rw [ec, Res.ok_bind, e, this, Res.ok_bind]
    simp only [Res.pure_eq, Option.map_some, stringsOf, Item.size]
    congr 3
    omega
  | .count n :: hs, pre, h1, _ => (h1 (.count n) (by simp)).elim
  | .label l d :: hs, pre, h1, _ => (h1 (.label l d) (by simp)).elim
  | .ins op a d :: hs, pre, h1, _ => (h1 (.ins op a d) (by simp)).elim

theorem byte_op {op : Nat} (h : op < 47) : (byte op).toNat = op := by
  have := toNat_byte' op
  rw [Nat.mod_eq_of_lt (by omega : op < 256)] at this
  exact this

theorem deasmLoop_ok (h : Endian) (look : Bytes → Nat) : ∀ (is : List Item) (pre : Bytes) (n : Nat), (∀ i ∈ is, i.inCode) → (∀ i ∈ is, i.Fine) →
    (∀ l, Uses is l → look l < 4294967296) → progSize is ≤ n →
    deasmLoop h (pre ++ is.flatMap (Item.bytes h look)) n pre.length = .ok (some (shows look pre.length is))
  | [], pre, n, _, _, _, _ => by
    cases n <;> simp [deasmLoop, shows]
  | i :: is, pre, n, h1, h2, h3, hn => by
    have h1' : ∀ i ∈ is, i.inCode := fun i hi => h1 i (by simp [hi])
    have h2' : ∀ i ∈ is, i.Fine := fun i hi => h2 i (by simp [hi])
    have h3' : ∀ l, Uses is l → look l < 4294967296 := fun l ⟨op, d, k⟩ => h3 l ⟨op, d, by simp [k]⟩
    have hi := h2 i (by simp)
    have hc := h1 i (by simp)
    rw [progSize_cons] at hn
    rw [List.flatMap_cons]
    have l4 : ∀ w, (mem32 h w).length = 4 := by intro w; cases h <;> rfl
    have arg : ∀ op w, 35 ≤ op → op < 47 → w < 4294967296 → 5 + progSize is ≤ n →
        deasmLoop h (pre ++ ((byte op :: mem32 h w) ++ is.flatMap (Item.bytes h look))) n pre.length =
          .ok (some (⟨pre.length, op, some w⟩ :: shows look (pre.length + 5) is)) := by
      intro op w o1 o2 hw hn
      obtain ⟨m, rfl⟩ : ∃ m, n = m + 1 := ⟨n - 1, by omega⟩
      have e1 : pre ++ ((byte op :: mem32 h w) ++ is.flatMap (Item.bytes h look)) = pre ++ byte op :: (mem32 h w ++ is.flatMap (Item.bytes h look)) := by simp
      have e2 : pre ++ ((byte op :: mem32 h w) ++ is.flatMap (Item.bytes h look)) = (pre ++ [byte op]) ++ (mem32 h w ++ is.flatMap (Item.bytes h look)) := by simp
      have e3 : pre ++ ((byte op :: mem32 h w) ++ is.flatMap (Item.bytes h look)) = ((pre ++ [byte op]) ++ mem32 h w) ++ is.flatMap (Item.bytes h look) := by simp
      have r1 : rd (pre ++ ((byte op :: mem32 h w) ++ is.flatMap (Item.bytes h look))) pre.length = .ok op := by
        rw [e1, rd_app, byte_op o2]
      have r2 : rd32 h (pre ++ ((byte op :: mem32 h w) ++ is.flatMap (Item.bytes h look))) (pre.length + 1) = .ok w := by
        have := rd32_mem32 h (pre ++ [byte op]) (is.flatMap (Item.bytes h look)) hw
        rw [e2]
        simpa using this
      have hl5 : ((pre ++ [byte op]) ++ mem32 h w).length = pre.length + 5 := by simp [l4]
      have r3 := deasmLoop_ok h look is ((pre ++ [byte op]) ++ mem32 h w) m h1' h2' h3' (by omega)
      rw [hl5, ← e3] at r3
      have hlen : (pre ++ ((byte op :: mem32 h w) ++ is.flatMap (Item.bytes h look))).length ≥ pre.length + 5 := by
        rw [e3, List.length_append, hl5]; omega
      unfold deasmLoop
      rw [if_pos (by omega), r1, Res.ok_bind, if_neg (by omega), if_pos (by omega), if_neg (by omega), r2, Res.ok_bind, r3, Res.ok_bind]
      rfl
    cases i with
    | blank => exact deasmLoop_ok h look is pre n h1' h2' h3' (by simpa [Item.size] using hn)
    | label l d => exact deasmLoop_ok h look is pre n h1' h2' h3' (by simpa [Item.size] using hn)
    | str s => exact hc.elim
    | count m => exact hc.elim
    | ins op a d =>
      cases a with
      | none =>
        simp only [Item.size] at hn
        obtain ⟨m, rfl⟩ : ∃ m, n = m + 1 := ⟨n - 1, by omega⟩
        have ho : op < 35 := hi
        have e1 : pre ++ ([byte op] ++ is.flatMap (Item.bytes h look)) = pre ++ byte op :: is.flatMap (Item.bytes h look) := by simp
        have e2 : pre ++ ([byte op] ++ is.flatMap (Item.bytes h look)) = (pre ++ [byte op]) ++ is.flatMap (Item.bytes h look) := by simp
        have r1 : rd (pre ++ ([byte op] ++ is.flatMap (Item.bytes h look))) pre.length = .ok op := by
          rw [e1, rd_app, byte_op (by omega)]
        have r3 := deasmLoop_ok h look is (pre ++ [byte op]) m h1' h2' h3' (by omega)
        have hl1 : (pre ++ [byte op]).length = pre.length + 1 := by simp
        rw [hl1, ← e2] at r3
        have hlen : (pre ++ ([byte op] ++ is.flatMap (Item.bytes h look))).length ≥ pre.length + 1 := by
          rw [e2, List.length_append, hl1]; omega
        show deasmLoop h (pre ++ ([byte op] ++ is.flatMap (Item.bytes h look))) (m + 1) pre.length = _
        unfold deasmLoop
        rw [if_pos (by omega), r1, Res.ok_bind, if_neg (by omega), if_neg (by omega), r3, Res.ok_bind]
        rfl
      | some a =>
        cases a with
        | word w => exact arg op w hi.1 hi.2.1 hi.2.2 (by simpa [Item.size] using hn)
        | ref l => exact arg op (look l) hi.1 hi.2 (h3 l ⟨op, d, by simp⟩) (by simpa [Item.size] using hn)

/-- A program: the number of strings, the strings, the code. -/
structure Program (is : List Item) (hs code : List Item) : Prop where
  split : ∃ bl, (∀ i ∈ bl, i = Item.blank) ∧ is = bl ++ .count (stringsOf hs).length :: (hs ++ code)
  header : ∀ i ∈ hs, i.inHeader
  code : ∀ i ∈ code, i.inCode

theorem blanks {h : Endian} {look : Bytes → Nat} : ∀ {bl : List Item}, (∀ i ∈ bl, i = Item.blank) → bl.flatMap (Item.bytes h look) = [] ∧ progSize bl = 0
  | [], _ => ⟨rfl, rfl⟩
  | i :: bl, hb => by
    obtain ⟨k1, k2⟩ := blanks (h := h) (look := look) (bl := bl) (fun i hi => hb i (by simp [hi]))
    rw [hb i (by simp), List.flatMap_cons, progSize_cons, k1, k2]
    exact ⟨rfl, rfl⟩

/-- **C40**: reading the bytecode back gives the strings and the instructions, with every label replaced by its position. -/
theorem C40_readback (T : Tools) (order : List (Nat × Bytes) → List (Nat × Bytes)) (ho : ∀ l, (order l).Perm l) (file : Bytes) (is hs code : List Item) (hf : FileOf T file is)
    (hp : Program is hs code) (hsize : progSize is < 2147483648) (look : Bytes → Nat) (hl : ∀ l, Uses is l → LabelAt is l (look l) ∧ look l < progSize is) :
    ∃ bytes d, asm T order file = .ok (some (bytes, d)) ∧
      deasm T.endian bytes = .ok (some (stringsOf hs, shows look (2 + progSize hs) code)) := by
  refine ⟨_, _, C40_assembles T order ho file is hf look hl, ?_⟩
  obtain ⟨bl, hb, he⟩ := hp.split
  have hfine := hf.fine
  obtain ⟨b1, b2⟩ := blanks (h := T.endian) (look := look) hb
  subst he
  rw [progSize_append, b2, progSize_cons, progSize_append] at hsize
  simp only [Item.size] at hsize
  rw [List.flatMap_append, b1, List.nil_append, List.flatMap_cons, List.flatMap_append]
  have hn : (stringsOf hs).length < 65536 := hfine (.count _) (by simp)
  have l2 : (mem16 T.endian (stringsOf hs).length).length = 2 := by cases T.endian <;> rfl
  show deasm T.endian (mem16 T.endian (stringsOf hs).length ++ (hs.flatMap (Item.bytes T.endian look) ++ code.flatMap (Item.bytes T.endian look))) = _
  unfold deasm
  rw [rd16_mem16 _ _ hn, Res.ok_bind]
  have k1 := deasmStrings_ok T.endian look (code.flatMap (Item.bytes T.endian look)) hs (mem16 T.endian (stringsOf hs).length) hp.header (fun i hi => hfine i (by simp [hi]))
  rw [l2] at k1
  rw [k1, Res.ok_bind]
  simp only
  have hl' : (mem16 T.endian (stringsOf hs).length ++ hs.flatMap (Item.bytes T.endian look)).length = 2 + progSize hs := by
    rw [List.length_append, l2, prog_length]
  have hu : ∀ l, Uses code l → look l < 4294967296 := by
    rintro l ⟨op, d, k⟩
    have := (hl l ⟨op, d, by simp [k]⟩).2
    rw [progSize_append, b2, progSize_cons, progSize_append] at this
    simp only [Item.size] at this
    omega
  rw [← List.append_assoc]
  have k2 := deasmLoop_ok T.endian look code (mem16 T.endian (stringsOf hs).length ++ hs.flatMap (Item.bytes T.endian look))
    (mem16 T.endian (stringsOf hs).length ++ hs.flatMap (Item.bytes T.endian look) ++ code.flatMap (Item.bytes T.endian look)).length hp.code (fun i hi => hfine i (by simp [hi])) hu
    (by rw [List.length_append, prog_length]; omega)
  rw [hl'] at k2
  rw [k2, Res.ok_bind]
  rfl

theorem shows_append (look : Bytes → Nat) (b : Nat) (x y : List Item) : shows look b (x ++ y) = shows look b x ++ shows look (b + progSize x) y := by
  induction x generalizing b with
  | nil => rfl
  | cons i x ih =>
    rw [List.cons_append, progSize_cons, ← Nat.add_assoc]
    cases i with
    | ins op a d =>
      cases a with
      | none => simp only [shows, ih, Item.size, List.cons_append]
      | some a => cases a <;> simp only [shows, ih, Item.size, List.cons_append]
    | _ => simp only [shows, ih]

theorem shows_first (look : Bytes → Nat) (b : Nat) : ∀ (x : List Item), (∀ i ∈ x, i.inCode) → 0 < progSize x → ∃ e r, shows look b x = e :: r ∧ e.pos = b
  | [], _, h => (by simp [progSize] at h)
  | i :: x, hc, h => by
    have hc' : ∀ i ∈ x, i.inCode := fun i hi => hc i (by simp [hi])
    rw [progSize_cons] at h
    cases i with
    | ins op a d =>
      cases a with
      | none => exact ⟨_, _, rfl, rfl⟩
      | some a => cases a <;> exact ⟨_, _, rfl, rfl⟩
    | blank => exact shows_first look b x hc' (by simpa [Item.size] using h)
    | label l d => exact shows_first look b x hc' (by simpa [Item.size] using h)
    | str s => exact (hc (.str s) (by simp)).elim
    | count n => exact (hc (.count n) (by simp)).elim

theorem shows_mem {look : Bytes → Nat} {e : Shown} : ∀ {b : Nat} {x : List Item}, e ∈ shows look b x → ∃ op a d, Item.ins op a d ∈ x ∧ e.op = op ∧
    ∀ l, a = some (.ref l) → e.arg = some (look l)
  | b, [], h => by cases h
  | b, i :: x, h => by
    have tail : ∀ b', e ∈ shows look b' x → ∃ op a d, Item.ins op a d ∈ i :: x ∧ e.op = op ∧ ∀ l, a = some (.ref l) → e.arg = some (look l) := by
      intro b' h
      obtain ⟨op, a, d, h1, h2⟩ := shows_mem h
      exact ⟨op, a, d, by simp [h1], h2⟩
    cases i with
    | ins op a d =>
      cases a with
      | none =>
        rcases List.mem_cons.mp h with rfl | h
        · exact ⟨op, none, d, by simp, rfl, by intro l h; cases h⟩
        · exact tail _ h
      | some a =>
        cases a with
        | word w =>
          rcases List.mem_cons.mp h with rfl | h
          · exact ⟨op, _, d, List.mem_cons_self .., rfl, by intro l h; cases h⟩
          · exact tail _ h
        | ref l =>
          rcases List.mem_cons.mp h with rfl | h
          · exact ⟨op, _, d, List.mem_cons_self .., rfl, by intro l h; cases h; rfl⟩
          · exact tail _ h
    | _ => exact tail _ h

/-- The jumps take labels. -/
theorem FileOf.jumps {T : Tools} {file : Bytes} {is : List Item} (h : FileOf T file is) : ∀ op a d, Item.ins op a d ∈ is → 44 ≤ op → ∃ l, a = some (.ref l) := by
  induction h with
  | nil => intro op a d hi; cases hi
  | cons hl _ ih =>
    intro op a d hi h44
    rcases List.mem_cons.mp hi with rfl | hi
    · cases hl with
      | ins0 _ h => omega
      | ins1 _ _ _ _ _ _ h7 =>
        cases h7 with
        | int => omega
        | flt => omega
        | ref => exact ⟨_, rfl⟩
        | fref => omega
    · exact ih op a d hi h44

/-- **C40**: in the bytecode of a program whose labels are in the code, every jump leads to the position of an instruction. -/
theorem C40_targets (T : Tools) (order : List (Nat × Bytes) → List (Nat × Bytes)) (ho : ∀ l, (order l).Perm l) (file : Bytes) (is hs code : List Item) (hf : FileOf T file is)
    (hp : Program is hs code) (hsize : progSize is < 2147483648) (bytes : Bytes) (d : Dbg) (ha : asm T order file = .ok (some (bytes, d))) :
    ∃ prog, deasm T.endian bytes = .ok (some (stringsOf hs, prog)) ∧
      ∀ e ∈ prog, 44 ≤ e.op → ∃ p, e.arg = some p ∧ p < bytes.length ∧ ∃ e' ∈ prog, e'.pos = p := by
  classical
  -- every used label is defined below the end
  have hdef : ∀ l, Uses is l → ∃ p, LabelAt is l p ∧ p < progSize is := by
    intro l hu
    by_contra hn
    have := C40_unknown T order ho file is hf l hu hn
    rw [this] at ha
    cases ha
  let look : Bytes → Nat := fun l => if h : Uses is l then (hdef l h).choose else 0
  have hl : ∀ l, Uses is l → LabelAt is l (look l) ∧ look l < progSize is := by
    intro l hu
    have : look l = (hdef l hu).choose := dif_pos hu
    rw [this]
    exact (hdef l hu).choose_spec
  obtain ⟨bytes', d', k1, k2⟩ := C40_readback T order ho file is hs code hf hp hsize look hl
  have k3 := C40_assembles T order ho file is hf look hl
  rw [ha] at k1 k3
  cases k1
  simp only [Res.ok.injEq, Option.some.injEq, Prod.mk.injEq] at k3
  refine ⟨_, k2, fun e he h44 => ?_⟩
  obtain ⟨op, a, dd, m1, m2, m3⟩ := shows_mem he
  obtain ⟨bl, hb, hsp⟩ := hp.split
  obtain ⟨l, rfl⟩ := hf.jumps op a dd (by rw [hsp]; simp [m1]) (by omega)
  have hu : Uses is l := ⟨op, dd, by rw [hsp]; simp [m1]⟩
  obtain ⟨⟨pre, d2, post, q1, q2, q3⟩, hlt⟩ := hl l hu
  refine ⟨look l, m3 l rfl, by rw [k3.1, prog_length]; exact hlt, ?_⟩
  -- the label is in the code
  have hmem : ∃ x y, code = x ++ .label l d2 :: y ∧ pre = bl ++ .count (stringsOf hs).length :: (hs ++ x) ∧ y = post := by
    have e : (bl ++ .count (stringsOf hs).length :: hs) ++ code = pre ++ .label l d2 :: post := by
      rw [← q1, hsp]; simp
    rcases List.append_eq_append_iff.mp e with ⟨x, e1, e2⟩ | ⟨x, e1, e2⟩
    · exact ⟨x, post, e2, by rw [e1]; simp, rfl⟩
    · cases x with
      | nil =>
        rw [List.append_nil] at e1
        exact ⟨[], post, by simpa using e2.symm, by rw [← e1]; simp, rfl⟩
      | cons i x =>
        rw [List.cons_append, List.cons.injEq] at e2
        exfalso
        have hm : Item.label l d2 ∈ bl ++ .count (stringsOf hs).length :: hs := by
          rw [e1, e2.1]; simp
        rw [List.mem_append, List.mem_cons] at hm
        rcases hm with hm | hm | hm
        · cases hb _ hm
        · cases hm
        · exact hp.header _ hm
  obtain ⟨x, y, e1, e2, e3⟩ := hmem
  have b2 := (blanks (h := T.endian) (look := look) hb).2
  have hpos : look l = 2 + progSize hs + progSize x := by
    rw [q2, e2, progSize_append, b2, progSize_cons, progSize_append]
    simp only [Item.size]
    omega
  have hy : 0 < progSize y := by
    have : progSize is = look l + progSize post := by
      rw [q1, progSize_append, progSize_cons, q2]
      simp only [Item.size]
      omega
    rw [e3]
    omega
  rw [e1, shows_append, ← hpos]
  have hsh : shows look (look l) (.label l d2 :: y) = shows look (look l) y := rfl
  rw [hsh]
  obtain ⟨e', r, f1, f2⟩ := shows_first look (look l) y (fun i hi => hp.code i (by rw [e1]; simp [hi])) hy
  exact ⟨e', by rw [f1]; simp, f2⟩

/-! ### Concrete cases -/

/-- Tools for the examples: a little-endian host whose `strtof` accepts nothing. -/
def plainTools : Tools := ⟨.little, fun _ => none⟩

/-- The text of an example. -/
def text (s : String) : Bytes := s.toList.map (fun c => UInt8.ofNat c.toNat)

/-- A program with a string, a comment, a loop, and debug information. -/
example : (asm plainTools id (text "!1\n'hi\n\tnop\n@top\t|3,4,f\n\tpushs 0  |3,9,f\n\tpop\n# back\n\tjump @top\n\tdone\n")) =
    .ok (some ([1, 0, 104, 105, 0, 0, 37, 0, 0, 0, 0, 4, 44, 6, 0, 0, 0, 1], recordAll [(6, ⟨[102], 3, 4⟩), (6, ⟨[102], 3, 9⟩)] Debug.new)) := by
  decide +kernel

example : deasm .little [1, 0, 104, 105, 0, 0, 37, 0, 0, 0, 0, 4, 44, 6, 0, 0, 0, 1] =
    .ok (some ([[104, 105]], [⟨5, 0, none⟩, ⟨6, 37, some 0⟩, ⟨11, 4, none⟩, ⟨12, 44, some 6⟩, ⟨17, 1, none⟩])) := by decide +kernel

/-- An unknown label, and a label at the end of the program. -/
example : asm plainTools id (text "!0\n\tjump @x\n") = .ok none ∧ asm plainTools id (text "!0\n\tjump @x\n@x\n") = .ok none := by decide +kernel

/-- A label defined twice marks its last place. -/
example : (asm plainTools id (text "!0\n@x\n\tnop\n@x\n\tjump @x\n")) = .ok (some ([0, 0, 0, 44, 3, 0, 0, 0], Debug.new)) := by decide +kernel

/-- A last line without a newline: the string loses its last character.  (Not a file of the grammar.) -/
example : (asm plainTools id (text "!1\n'hi")) = .ok (some ([1, 0, 104, 0], Debug.new)) := by decide +kernel

/-- The grammar accepts the program. -/
example : FileOf plainTools [33, 48, 10, 64, 120, 10, 9, 106, 117, 109, 112, 32, 64, 120, 10] [.count 0, .label [64, 120] none, .ins 44 (some (.ref [64, 120])) none] :=
  .cons (bs := [33, 48]) (.count (ws := []) (t := [48]) (ws' := []) (by simp [Spaces]) (.digit (by decide) (by decide)) (by decide) (by simp [Spaces]))
    (.cons (bs := [64, 120]) (.label (ws := []) (l := [120]) (ws' := []) (dt := []) (ws'' := []) (by simp [Spaces]) (by unfold Clean; decide) (by simp [Spaces]) .none (by simp [Spaces]))
      (.cons (bs := [9, 106, 117, 109, 112, 32, 64, 120])
        (.ins1 (ws := [9]) (nm := [106, 117, 109, 112]) (t := [64, 120]) (ws' := []) (dt := []) (ws'' := []) (s := 32) (by simp [Spaces]) (by decide) (by decide) (Or.inl rfl) (by simp)
          (by unfold Clean; decide) (.ref (by decide) (by intro c h; cases h; decide)) (by simp [Spaces]) .none (by simp [Spaces])) .nil))

/-! ### Disassembling anything -/

theorem deasmLoop_total (h : Endian) (buf : Bytes) : ∀ (n i : Nat), buf.length ≤ i + n → ∃ r, deasmLoop h buf n i = .ok r
  | 0, i, hn => ⟨_, by unfold deasmLoop; rw [if_neg (by omega)]⟩
  | n + 1, i, hn => by
    unfold deasmLoop
    by_cases hi : i < buf.length
    swap
    · exact ⟨_, if_neg hi⟩
    have rdok : ∀ j, j < buf.length → ∃ b, rd buf j = .ok b := fun j hj => ⟨_, by unfold rd; rw [List.getElem?_eq_getElem hj]⟩
    obtain ⟨op, ho⟩ := rdok i hi
    rw [if_pos hi, ho, Res.ok_bind]
    split
    · exact ⟨_, rfl⟩
    split
    · split
      · exact ⟨_, rfl⟩
      · obtain ⟨a, ha⟩ := rdok (i + 1) (by omega)
        obtain ⟨b, hb⟩ := rdok (i + 1 + 1) (by omega)
        obtain ⟨c, hc⟩ := rdok (i + 1 + 2) (by omega)
        obtain ⟨d, hd⟩ := rdok (i + 1 + 3) (by omega)
        obtain ⟨r, hr⟩ := deasmLoop_total h buf n (i + 5) (by omega)
        unfold rd32
        rw [ha, Res.ok_bind, hb, Res.ok_bind, hc, Res.ok_bind, hd, Res.ok_bind]
        cases h <;> exact ⟨_, by simp only [Res.pure_eq, Res.ok_bind]; rw [hr]; rfl⟩
    · obtain ⟨r, hr⟩ := deasmLoop_total h buf n (i + 1) (by omega)
      exact ⟨_, by rw [hr]; rfl⟩

theorem split0 : ∀ l : Bytes, 0 ∈ l → ∃ rest, l.takeWhile (fun x : UInt8 => decide (x ≠ 0)) ++ 0 :: rest = l ∧ 0 ∉ l.takeWhile (fun x : UInt8 => decide (x ≠ 0))
  | [], h => by cases h
  | x :: l, h => by
    by_cases hx : x = 0
    · subst hx
      exact ⟨l, by simp, by simp⟩
    · obtain ⟨rest, h1, h2⟩ := split0 l (by
        rcases List.mem_cons.mp h with h | h
        · exact absurd h.symm hx
        · exact h)
      refine ⟨rest, ?_, ?_⟩
      · rw [List.takeWhile_cons, if_pos (by simpa using hx), List.cons_append, h1]
      · rw [List.takeWhile_cons, if_pos (by simpa using hx), List.mem_cons]
        rintro (h | h)
        · exact hx h.symm
        · exact h2 h

/-- There are `c` strings in these bytes, or the last byte ends a string. -/
def StrsEnd (c : Nat) (l : Bytes) : Prop := c ≤ l.count 0 ∨ l.getLast?.getD 0 = 0

theorem deasmStrings_total (buf : Bytes) : ∀ (c i : Nat), StrsEnd c (buf.drop i) → ∃ r, deasmStrings buf c i = .ok r
  | 0, i, _ => ⟨_, rfl⟩
  | c + 1, i, he => by
    unfold deasmStrings
    by_cases hi : i < buf.length
    swap
    · exact ⟨_, if_neg hi⟩
    have h0 : (0 : UInt8) ∈ buf.drop i := by
      rcases he with he | he
      · exact List.count_pos_iff.mp (by omega)
      · cases hl : (buf.drop i).getLast? with
        | none =>
          rw [List.getLast?_eq_none_iff, List.drop_eq_nil_iff] at hl
          omega
        | some x =>
          rw [hl] at he
          exact he ▸ List.mem_of_getLast? hl
    obtain ⟨rest, hsplit, ht⟩ := split0 _ h0
    generalize hs : (buf.drop i).takeWhile (fun x : UInt8 => decide (x ≠ 0)) = t at hsplit ht
    have hlen : i + t.length + 1 + rest.length = buf.length := by
      have := congrArg List.length hsplit
      rw [List.length_append, List.length_cons, List.length_drop] at this
      omega
    have hrest : buf.drop (i + t.length + 1) = rest := by
      rw [Nat.add_assoc, ← List.drop_drop, ← hsplit, List.drop_append]
      simp
    replace ht : t.count 0 = 0 := List.count_eq_zero.mpr ht
    obtain ⟨r, hr⟩ := deasmStrings_total buf c (i + t.length + 1) (by
      rw [hrest]
      rcases he with he | he
      · left
        rw [← hsplit, List.count_append, ht, List.count_cons_self] at he
        omega
      · right
        rw [← hsplit] at he
        cases rest with
        | nil => rfl
        | cons x rest =>
          rw [List.getLast?_append] at he
          cases hg : (x :: rest).getLast? with
          | none => simp at hg
          | some y =>
            rw [List.getLast?_cons_cons, hg] at he
            exact he)
    have h1 : cstrAt buf i = .ok t := by
      unfold cstrAt
      simp only [hs]
      rw [if_pos (by omega)]
    exact ⟨_, by rw [if_pos hi, h1, Res.ok_bind, hr]; rfl⟩

/-- **C40**: the disassembler is defined on any bytes, whatever they are, that begin with a number of strings followed by that many zeros or ended by a zero: it shows
instructions or refuses, but reads nothing behind the bytes. -/
theorem C40_deasm_any (h : Endian) (b0 b1 : UInt8) (l : Bytes) (he : StrsEnd (if h = .little then b0.toNat + 256 * b1.toNat else b1.toNat + 256 * b0.toNat) l) :
    ∃ r, deasm h (b0 :: b1 :: l) = .ok r := by
  obtain ⟨r, hr⟩ := deasmStrings_total (b0 :: b1 :: l) _ 2 he
  unfold deasm
  have : rd16 h (b0 :: b1 :: l) 0 = .ok (if h = .little then b0.toNat + 256 * b1.toNat else b1.toNat + 256 * b0.toNat) := by
    clear he hr
    cases h <;> rfl
  rw [this, Res.ok_bind, hr, Res.ok_bind]
  cases r with
  | none => exact ⟨_, rfl⟩
  | some x =>
    obtain ⟨q, hq⟩ := deasmLoop_total h (b0 :: b1 :: l) (b0 :: b1 :: l).length x.2 (by omega)
    exact ⟨_, by simp only; rw [hq]; rfl⟩

/-- An instruction without its argument is refused; a string without an end is read beyond the bytes. -/
example : StrsEnd 0 [35, 1, 1, 1] ∧ deasm .little [0, 0, 35, 1, 1, 1] = .ok none ∧ deasm .little [0, 0, 1] = .ok (some ([], [⟨2, 1, none⟩])) ∧ deasm .little [1, 0, 65] = .ub :=
  ⟨.inl (by decide), by decide, by decide, by decide⟩

end Buzz.Props
