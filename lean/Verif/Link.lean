import Verif.Props.Asm
import Verif.Emit
import Verif.Place

/-
The text that the compiler writes, as assembly: the items of its lines, the positions of the labels, and where the code of every
chunk lies in the bytecode that the assembler makes of it.
-/
namespace Buzz.Link

open Buzz.Msg Buzz.VM Buzz.Debug Buzz.Parser Buzz.Props
open Buzz.Comp (EC Out Fine plain labs lines)
open Buzz.Sim (Ctx LnAt CodeAt ArgAt Placed)
open Buzz.Asm (Tools)

/-! ### Numbers as text -/

theorem digits_decimal (n : Nat) : Decimal (Obj.digits n) n := by
  induction n using Nat.strongRecOn with
  | ind n ih =>
    rw [digits_step]
    have hb : ∀ k, k < 10 → (byte (48 + k)).toNat = 48 + k := by
      intro k hk
      rw [← Nat.mod_eq_of_lt (by omega : 48 + k < 256), toNat_byte', Nat.mod_eq_of_lt (by omega)]
    by_cases h : n < 10
    · rw [if_pos h]
      have := Decimal.digit (c := byte (48 + n)) (by rw [hb n h]; omega) (by rw [hb n h]; omega)
      rw [hb n h, Nat.add_sub_cancel_left] at this
      exact this
    · rw [if_neg h]
      have hm : n % 10 < 10 := Nat.mod_lt _ (by decide)
      have := Decimal.more (c := byte (48 + n % 10)) (ih (n / 10) (by omega)) (by rw [hb _ hm]; omega) (by rw [hb _ hm]; omega)
      rw [hb _ hm, Nat.add_sub_cancel_left, Nat.div_add_mod] at this
      exact this

theorem fmtD_signed {v : Int} (h : 0 ≤ v) : Signed (Obj.fmtD v) v := by
  unfold Obj.fmtD
  rw [if_neg (by omega)]
  have := Signed.plain (digits_decimal v.natAbs)
  rw [Int.natAbs_of_nonneg h] at this
  exact this

theorem decimal_fold {t : Bytes} (h1 : ∀ c ∈ t, 48 ≤ c.toNat ∧ c.toNat ≤ 57) (h2 : t ≠ []) : Decimal t (t.foldl (fun n c => 10 * n + (c.toNat - 48)) 0) := by
  induction t using List.reverseRecOn with
  | nil => exact absurd rfl h2
  | append_singleton t c ih =>
    have hc := h1 c (by simp)
    rw [List.foldl_append]
    by_cases ht : t = []
    · subst ht
      have := Decimal.digit hc.1 hc.2
      simpa using this
    · exact .more (ih (fun x hx => h1 x (by simp [hx])) ht) hc.1 hc.2

theorem digitsVal_decimal {t : Bytes} {n : Nat} (h : Lang.digitsVal t = some n) : Decimal t n := by
  unfold Lang.digitsVal at h
  split at h
  · rename_i k
    cases h
    exact decimal_fold k.2 k.1
  · cases h

theorem decimal_signed {t : Bytes} {v : Int} (h : Lang.decimal t = some v) : Signed t v := by
  unfold Lang.decimal at h
  split at h
  · cases k : Lang.digitsVal _ with
    | none => rw [k] at h; cases h
    | some n => rw [k] at h; cases h; exact .plus (digitsVal_decimal k)
  · cases k : Lang.digitsVal _ with
    | none => rw [k] at h; cases h
    | some n => rw [k] at h; cases h; exact .minus (digitsVal_decimal k)
  · cases k : Lang.digitsVal t with
    | none => rw [k] at h; cases h
    | some n => rw [k] at h; cases h; exact .plain (digitsVal_decimal k)

theorem Decimal.clean {t : Bytes} {n : Nat} (h : Decimal t n) : Clean t := fun c hc =>
  have := digit_plain ((decimal_ok h).2.1 c hc); ⟨this.1, this.2.1, this.2.2.1⟩

theorem clean_append {a b : Bytes} (ha : Clean a) (hb : Clean b) : Clean (a ++ b) := fun c hc => (List.mem_append.mp hc).elim (ha c) (hb c)

theorem Signed.clean {t : Bytes} {v : Int} (h : Signed t v) : Clean t ∧ t ≠ [] := by
  cases h with
  | plain h => exact ⟨Decimal.clean h, (decimal_ok h).2.2⟩
  | plus h => exact ⟨clean_append (a := [43]) (by unfold Clean; decide) (Decimal.clean h), by simp⟩
  | minus h => exact ⟨clean_append (a := [45]) (by unfold Clean; decide) (Decimal.clean h), by simp⟩

theorem digits_inj {a b : Nat} (h : Obj.digits a = Obj.digits b) : a = b := by
  have := (decimal_ok (digits_decimal a)).1
  rw [h, (decimal_ok (digits_decimal b)).1] at this
  exact this.symm

/-! ### Labels -/

theorem labelText_inj {a b : Nat} (h : labelText a = labelText b) : a = b := digits_inj (List.append_cancel_left h)

theorem exit_ne (k : Nat) : exitText ≠ labelText k := by
  intro h
  simp [exitText, labelText] at h

/-- A label after its `@`. -/
def labelTail (k : Nat) : Bytes := [95, 95, 108, 97, 98, 101, 108, 95] ++ Obj.digits k

theorem labelText_eq (k : Nat) : labelText k = 64 :: labelTail k := rfl

theorem labelTail_clean (k : Nat) : Clean (labelTail k) := clean_append (by unfold Clean; decide) (Decimal.clean (digits_decimal k))

/-! ### Lines and items -/

/-- A line of compiled code, or the exit point of the program. -/
def Okay (B : Nat) (ts : List Bytes) : Ln → Prop
  | .exit => True
  | l => Fine B ts l

theorem Fine.okay {B : Nat} {ts : List Bytes} {l : Ln} (h : Fine B ts l) : Okay B ts l := by
  cases l <;> first | trivial | exact h


/-- A numeric constant that fits its instruction. -/
structure NumOk (T : Tools) (t : Bytes) : Prop where
  ne : t ≠ []
  clean : Clean t
  flt : 46 ∈ t → ∃ w, T.strtof t = some w ∧ w < 4294967296
  int : 46 ∉ t → ∃ v, Lang.decimal t = some v ∧ v.natAbs < 18446744073709551616

/-- The word of a numeric constant. -/
def constWord (T : Tools) (t : Bytes) : Nat := if 46 ∈ t then (T.strtof t).getD 0 else ((Lang.decimal t).getD 0 % 4294967296).toNat

/-- The items of a line. -/
def lnItems (T : Tools) (d : Option Pos) : Ln → List Item
  | .lab k => [.label (labelText k) d]
  | .exit => [.blank, .label exitText d]
  | .op i => [.ins i none d]
  | .num i v => [.ins i (some (.word (v % 4294967296).toNat)) d]
  | .txt i t => [.ins i (some (.word (constWord T t))) d]
  | .ref i k => [.ins i (some (.ref (labelText k))) d]

theorem opName_get {i : Nat} (h : i < 47) : Asm.names[i]? = some (opName i) := by
  unfold opName
  cases k : Asm.names[i]? with
  | none =>
    rw [List.getElem?_eq_none_iff] at k
    have : Asm.names.length = 47 := by decide
    omega
  | some x => rfl

theorem spaces_tab : Spaces [9] := by simp [Spaces]

theorem constWord_text {T : Tools} {i : Nat} {t : Bytes} (h : NumOk T t) (hi : 46 ∈ t ∧ i = 35 ∨ 46 ∉ t ∧ i = 36) : ArgText T i t (.word (constWord T t)) := by
  unfold constWord
  rcases hi with ⟨h1, rfl⟩ | ⟨h1, rfl⟩
  · obtain ⟨w, h2, h3⟩ := h.flt h1
    rw [if_pos h1, h2]
    exact .flt h2 h3
  · obtain ⟨v, h2, h3⟩ := h.int h1
    rw [if_neg h1, h2]
    exact .int (by decide) (by decide) (decimal_signed h2) h3

/-- A line of the compiler's output is a line of assembly. -/
theorem ln_file {T : Tools} {B : Nat} {ts : List Bytes} {l : Ln} (hl : Okay B ts l) (hB : B < 18446744073709551616) (ht : ∀ t ∈ ts, NumOk T t) {d : Option Pos} {dt ws : Bytes}
    (hd : DbgText d dt) (hw : Spaces ws) {rest : Bytes} {is : List Item} (hr : FileOf T rest is) :
    FileOf T (l.text ++ (ws ++ (dt ++ 10 :: rest))) (lnItems T d l ++ is) := by
  cases l with
  | lab k =>
    have := FileOf.cons (Line.label (T := T) (ws := []) (ws'' := []) (by simp [Spaces]) (labelTail_clean k) hw hd (by simp [Spaces])) hr
    simpa [lnItems, Ln.text, labelText_eq] using this
  | exit =>
    have h1 := FileOf.cons (Line.label (T := T) (ws := []) (ws'' := []) (l := [95, 95, 101, 120, 105, 116, 112, 111, 105, 110, 116]) (by simp [Spaces]) (by unfold Clean; decide) hw hd (by simp [Spaces])) hr
    have h2 := FileOf.cons (Line.blank (T := T) (ws := []) (by simp [Spaces])) h1
    simpa [lnItems, Ln.text, exitText] using h2
  | op i =>
    have hi : i < 35 := hl
    have := FileOf.cons (Line.ins0 (T := T) (ws'' := []) spaces_tab hi (opName_get (by omega)) hw hd (by simp [Spaces])) hr
    simpa [lnItems, Ln.text] using this
  | num i v =>
    obtain ⟨⟨h1, h2⟩, h3, h4⟩ := hl
    have hs := fmtD_signed h3
    have := FileOf.cons (Line.ins1 (T := T) (ws'' := []) (s := 32) spaces_tab (by omega) (opName_get (by omega)) (.inl rfl) (Signed.clean hs).2 (Signed.clean hs).1 (.int h1 h2 hs (by omega)) hw hd (by simp [Spaces])) hr
    simpa [lnItems, Ln.text] using this
  | txt i t =>
    obtain ⟨h1, h2⟩ := hl
    have hn := ht t h1
    have h3 : 35 ≤ i ∧ i < 47 := by rcases h2 with ⟨_, rfl⟩ | ⟨_, rfl⟩ <;> exact ⟨by decide, by decide⟩
    have := FileOf.cons (Line.ins1 (T := T) (ws'' := []) (s := 32) spaces_tab h3.1 (opName_get h3.2) (.inl rfl) hn.ne hn.clean (constWord_text hn h2) hw hd (by simp [Spaces])) hr
    simpa [lnItems, Ln.text] using this
  | ref i k =>
    obtain ⟨h1, h2⟩ := hl
    have := FileOf.cons (Line.ins1 (T := T) (ws'' := []) (s := 32) (t := labelText k) spaces_tab (by omega) (opName_get h2) (.inl rfl) (by simp [labelText_eq])
      (clean_append (a := [64]) (by unfold Clean; decide) (labelTail_clean k)) (.ref h1 (by simp only [labelText_eq, List.head?_cons, Option.some.injEq]; rintro c rfl; decide)) hw hd (by simp [Spaces])) hr
    simpa [lnItems, Ln.text] using this

/-- Positions that can be written as debug information. -/
structure PosOk (p : Pos) : Prop where
  line : p.line < 9223372036854775808
  col : p.col < 9223372036854775808
  name : ∀ x ∈ p.fname, x ≠ 0 ∧ x ≠ 10 ∧ x ≠ 44 ∧ x ≠ 124
  last : ∀ x, p.fname.getLast? = some x → isSpace x = false

theorem PosOk.text {p : Pos} (h : PosOk p) : DbgText (some p) (124 :: (Obj.digits p.line ++ 44 :: (Obj.digits p.col ++ 44 :: p.fname))) :=
  .some (digits_decimal _) (digits_decimal _) h.line h.col h.name h.last

/-- The items of lines with positions. -/
def codeItems (T : Tools) (code : List (Ln × Pos)) : List Item := code.flatMap (fun e => lnItems T (some e.2) e.1)

theorem code_file {T : Tools} {B : Nat} {ts : List Bytes} (hB : B < 18446744073709551616) (ht : ∀ t ∈ ts, NumOk T t) {rest : Bytes} {is : List Item} (hr : FileOf T rest is) :
    ∀ code : List (Ln × Pos), (∀ e ∈ code, Okay B ts e.1 ∧ PosOk e.2) → FileOf T (code.flatMap lineText ++ rest) (codeItems T code ++ is)
  | [], _ => hr
  | e :: code, h => by
    have ih := code_file hB ht hr code (fun x hx => h x (List.mem_cons_of_mem _ hx))
    have he := h e List.mem_cons_self
    have := ln_file he.1 hB ht he.2.text spaces_tab ih
    simpa [codeItems, lineText, List.flatMap_cons] using this

/-- The items of a chunk. -/
def chunkItems (T : Tools) (c : Chunk) : List Item := .blank :: .label (labelText c.label) none :: codeItems T c.code

theorem chunk_file {T : Tools} {B : Nat} {ts : List Bytes} (hB : B < 18446744073709551616) (ht : ∀ t ∈ ts, NumOk T t) {rest : Bytes} {is : List Item} (hr : FileOf T rest is)
    {c : Chunk} (h : ∀ e ∈ c.code, Okay B ts e.1 ∧ PosOk e.2) : FileOf T (chunkText c ++ rest) (chunkItems T c ++ is) := by
  have h1 := code_file hB ht hr c.code h
  have h2 := FileOf.cons (Line.label (T := T) (ws := []) (ws' := []) (ws'' := []) (by simp [Spaces]) (labelTail_clean c.label) (by simp [Spaces]) .none (by simp [Spaces])) h1
  have h3 := FileOf.cons (Line.blank (T := T) (ws := []) (by simp [Spaces])) h2
  simpa [chunkItems, chunkText, labelText_eq] using h3

theorem chunks_file {T : Tools} {B : Nat} {ts : List Bytes} (hB : B < 18446744073709551616) (ht : ∀ t ∈ ts, NumOk T t) :
    ∀ cs : List Chunk, (∀ c ∈ cs, ∀ e ∈ c.code, Okay B ts e.1 ∧ PosOk e.2) → FileOf T (cs.flatMap chunkText) (cs.flatMap (chunkItems T))
  | [], _ => .nil
  | c :: cs, h => by
    rw [List.flatMap_cons, List.flatMap_cons]
    exact chunk_file hB ht (chunks_file hB ht cs (fun x hx => h x (List.mem_cons_of_mem _ hx))) (h c List.mem_cons_self)

theorem regs_file {T : Tools} {B : Nat} {ts : List Bytes} (hB : B < 18446744073709551616) (ht : ∀ t ∈ ts, NumOk T t) {rest : Bytes} {is : List Item} (hr : FileOf T rest is) :
    ∀ r : List Ln, (∀ l ∈ r, Okay B ts l) → FileOf T (r.flatMap (fun l => l.text ++ [10]) ++ rest) (r.flatMap (lnItems T none) ++ is)
  | [], _ => hr
  | l :: r, h => by
    have ih := regs_file hB ht hr r (fun x hx => h x (List.mem_cons_of_mem _ hx))
    have := ln_file (h l List.mem_cons_self) hB ht .none (ws := []) (by simp [Spaces]) ih
    simpa [List.flatMap_cons] using this

theorem strs_file {T : Tools} {rest : Bytes} {is : List Item} (hr : FileOf T rest is) :
    ∀ ss : List Bytes, (∀ s ∈ ss, NoBreak s) → FileOf T (ss.flatMap (fun s => 39 :: (s ++ [10])) ++ rest) (ss.map .str ++ is)
  | [], _ => hr
  | s :: ss, h => by
    have ih := strs_file hr ss (fun x hx => h x (List.mem_cons_of_mem _ hx))
    have := FileOf.cons (Line.str (T := T) (ws := []) (by simp [Spaces]) (h s List.mem_cons_self)) ih
    simpa [List.flatMap_cons] using this

/-- The items of the whole output: strings, code that registers functions, chunks. -/
def items (T : Tools) (ss : List Bytes) (r : List Ln) (cs : List Chunk) : List Item :=
  .count ss.length :: (ss.map .str ++ .blank :: (r.flatMap (lnItems T none) ++ .ins 0 none none :: cs.flatMap (chunkItems T)))

/-- The compiler's output is assembly. -/
theorem output_file {T : Tools} {B : Nat} {ts : List Bytes} (hB : B < 18446744073709551616) (ht : ∀ t ∈ ts, NumOk T t) {p : P} {text : Bytes} {r : List Ln} {ss : List Bytes}
    (ho : output p = .ok text) (hr : registerAll (p.symstack.getLastD []) p.chunks = .ok r) (hs : sorted p.strings = ss) (hn : ss.length < 65536) (hss : ∀ s ∈ ss, NoBreak s)
    (hrf : ∀ l ∈ r, Okay B ts l) (hc : ∀ c ∈ p.chunks, ∀ e ∈ c.code, Okay B ts e.1 ∧ PosOk e.2) : FileOf T text (items T ss r p.chunks) := by
  unfold output at ho
  rw [hr, Res.ok_bind, Res.pure_eq, hs] at ho
  cases ho
  have hlen : p.strings.length = ss.length := by rw [← hs]; simp [sorted]
  have h1 := chunks_file hB ht p.chunks hc
  have h2 := FileOf.cons (Line.ins0 (T := T) (ws' := []) (ws'' := []) spaces_tab (by decide : 0 < 35) (opName_get (by decide)) (by simp [Spaces]) .none (by simp [Spaces])) h1
  have h3 := FileOf.cons (Line.blank (T := T) (ws := []) (by simp [Spaces])) (regs_file hB ht h2 r hrf)
  have h4 := FileOf.cons (Line.count (T := T) (ws := []) (ws' := []) (by simp [Spaces]) (digits_decimal _) hn (by simp [Spaces])) (strs_file h3 ss hss)
  simpa [items, hlen] using h4

/-! ### Positions of labels -/

/-- The labels set by items. -/
def labelsOf (is : List Item) : List Bytes := is.filterMap (fun i => match i with | .label l _ => some l | _ => none)

theorem labelsOf_append (a b : List Item) : labelsOf (a ++ b) = labelsOf a ++ labelsOf b := List.filterMap_append ..

theorem mem_labelsOf {is : List Item} {l : Bytes} : l ∈ labelsOf is ↔ ∃ d, Item.label l d ∈ is := by
  unfold labelsOf
  rw [List.mem_filterMap]
  constructor
  · rintro ⟨i, h1, h2⟩
    cases i with
    | label l' d => cases h2; exact ⟨d, h1⟩
    | _ => cases h2
  · rintro ⟨d, h⟩
    exact ⟨_, h, rfl⟩

/-- Where a label is set first. -/
def lookIn : Nat → List Item → Bytes → Nat
  | b, [], _ => b
  | b, .label l' _ :: is, l => if l' = l then b else lookIn b is l
  | b, i :: is, l => lookIn (b + i.size) is l

theorem lookIn_split {l : Bytes} {d : Option Pos} {B : List Item} : ∀ (A : List Item) (b : Nat), l ∉ labelsOf A → lookIn b (A ++ .label l d :: B) l = b + progSize A
  | [], b, _ => by
    show (if l = l then b else _) = _
    rw [if_pos rfl]
    rfl
  | i :: A, b, h => by
    have h' : l ∉ labelsOf A := fun k => h (by
      rw [mem_labelsOf] at k ⊢
      obtain ⟨d, k⟩ := k
      exact ⟨d, List.mem_cons_of_mem _ k⟩)
    rw [progSize_cons, List.cons_append]
    cases i with
    | label l' d' =>
      have hne : l' ≠ l := by
        rintro rfl
        exact h (mem_labelsOf.mpr ⟨d', List.mem_cons_self⟩)
      show (if l' = l then b else lookIn b _ l) = _
      rw [if_neg hne, lookIn_split A b h']
      show _ = b + (0 + _)
      omega
    | _ =>
      show lookIn (b + Item.size _) _ l = _
      rw [lookIn_split A _ h', Nat.add_assoc]

/-- Labels set once, and not at the end. -/
structure Linkable (is : List Item) : Prop where
  nodup : (labelsOf is).Nodup
  last : ∃ X i a d, is = X ++ [.ins i a d]
  refs : ∀ l, Uses is l → l ∈ labelsOf is

theorem Linkable.look {is : List Item} (h : Linkable is) {A B : List Item} {l : Bytes} {d : Option Pos} (e : is = A ++ .label l d :: B) :
    lookIn 0 is l = progSize A ∧ l ∉ labelsOf A ∧ l ∉ labelsOf B := by
  have hn := h.nodup
  rw [e, labelsOf_append] at hn
  have hn' := List.nodup_append.mp hn
  have hA : l ∉ labelsOf A := fun k => hn'.2.2 l k l (by exact List.mem_cons_self) rfl
  have hB : l ∉ labelsOf B := (List.nodup_cons.mp (show (l :: labelsOf B).Nodup from hn'.2.1)).1
  refine ⟨?_, hA, hB⟩
  rw [e, lookIn_split A 0 hA, Nat.zero_add]

theorem Linkable.ends {is : List Item} (h : Linkable is) {A B : List Item} {l : Bytes} {d : Option Pos} (e : is = A ++ .label l d :: B) : progSize A < progSize is := by
  obtain ⟨X, i, a, d', k⟩ := h.last
  rcases List.eq_nil_or_concat B with rfl | ⟨B', x, rfl⟩
  · rw [k] at e
    have := List.append_inj' e rfl
    cases this.2
  · rw [List.concat_eq_append] at e
    rw [e, show A ++ Item.label l d :: (B' ++ [x]) = (A ++ Item.label l d :: B') ++ [x] by simp] at k
    have := List.append_inj' k rfl
    cases this.2
    rw [e, progSize_append, progSize_cons, progSize_append, progSize_cons]
    cases a <;> simp only [Item.size] <;> omega

theorem Linkable.labelAt {is : List Item} (h : Linkable is) {l : Bytes} (hl : l ∈ labelsOf is) : LabelAt is l (lookIn 0 is l) ∧ lookIn 0 is l < progSize is := by
  obtain ⟨d, hm⟩ := mem_labelsOf.mp hl
  obtain ⟨A, B, e⟩ := List.append_of_mem hm
  obtain ⟨h1, h2, h3⟩ := h.look e
  rw [h1]
  exact ⟨⟨A, d, B, e, rfl, fun d' k => h3 (mem_labelsOf.mpr ⟨d', k⟩)⟩, h.ends e⟩

/-! ### Code -/

/-- The machine's bytecode is that of the items. -/
structure Linked (T : Tools) (is : List Item) (K : Ctx) : Prop where
  can : Linkable is
  endian : K.E.endian = T.endian
  strtof : K.strtof = T.strtof
  code : K.code = is.flatMap (Item.bytes T.endian (lookIn 0 is))
  pos : ∀ k, K.pos k = lookIn 0 is (labelText k)
  size : progSize is ≤ 2147483647

theorem Linked.length {T : Tools} {is : List Item} {K : Ctx} (h : Linked T is K) : K.code.length = progSize is := by rw [h.code, prog_length]

theorem mem32_length (h : Endian) (w : Nat) : (mem32 h w).length = 4 := by cases h <;> rfl

theorem constWord_lt {T : Tools} {t : Bytes} (h : NumOk T t) : constWord T t < 4294967296 := by
  unfold constWord
  split
  · rename_i k
    obtain ⟨w, h1, h2⟩ := h.flt k
    rw [h1]
    exact h2
  · omega

theorem Linked.op {T : Tools} {is A B : List Item} {K : Ctx} (h : Linked T is K) {i : Nat} {a : Option AsmArg} {d : Option Pos} (e : is = A ++ .ins i a d :: B) (hi : i < 47) :
    rd K.code (progSize A) = .ok i := by
  obtain ⟨r, hr⟩ : ∃ r, Item.bytes T.endian (lookIn 0 is) (.ins i a d) = byte i :: r := by
    cases a with
    | none => exact ⟨_, rfl⟩
    | some a => cases a <;> exact ⟨_, rfl⟩
  have hc : K.code = A.flatMap (Item.bytes T.endian (lookIn 0 is)) ++ ([byte i] ++ (r ++ B.flatMap (Item.bytes T.endian (lookIn 0 is)))) := by
    rw [h.code]
    conv_lhs => rw [e]
    rw [List.flatMap_append, List.flatMap_cons, ← e, hr]
    simp
  have := rd_at _ _ _ hc 0 (byte i) rfl
  rw [prog_length, byte_op hi] at this
  exact this

theorem Linked.arg {T : Tools} {is A B : List Item} {K : Ctx} (h : Linked T is K) {i w : Nat} {a : AsmArg} {d : Option Pos} (e : is = A ++ .ins i (some a) d :: B)
    (hw : Item.bytes T.endian (lookIn 0 is) (.ins i (some a) d) = byte i :: mem32 T.endian w) (hlt : w < 4294967296) : ArgAt K (progSize A) w := by
  refine ⟨hlt, ?_⟩
  have hc : K.code = (A.flatMap (Item.bytes T.endian (lookIn 0 is)) ++ [byte i]) ++ (mem32 T.endian w ++ B.flatMap (Item.bytes T.endian (lookIn 0 is))) := by
    rw [h.code]
    conv_lhs => rw [e]
    rw [List.flatMap_append, List.flatMap_cons, ← e, hw]
    simp
  have := rd32_mem32 T.endian (A.flatMap (Item.bytes T.endian (lookIn 0 is)) ++ [byte i]) (B.flatMap (Item.bytes T.endian (lookIn 0 is))) hlt
  rw [← hc, List.length_append, prog_length, ← h.endian] at this
  exact this

/-- A line lies where its items are. -/
theorem Linked.ln {T : Tools} {is A B : List Item} {K : Ctx} (h : Linked T is K) {N : Nat} {ts : List Bytes} {l : Ln} {d : Option Pos} (e : is = A ++ (lnItems T d l ++ B))
    (hf : Okay N ts l) (ht : ∀ t ∈ ts, NumOk T t) : LnAt K (progSize A) l (progSize (A ++ lnItems T d l)) := by
  rw [progSize_append]
  cases l with
  | lab k =>
    refine ⟨?_, rfl⟩
    rw [h.pos]
    exact (h.can.look e).1
  | exit => rfl
  | op i =>
    have hi : i < 35 := hf
    exact ⟨h.op e (by omega), rfl⟩
  | num i v =>
    have hi : 36 ≤ i ∧ i ≤ 43 := hf.1
    exact ⟨h.op e (by omega), h.arg e rfl (by omega), rfl⟩
  | txt i t =>
    obtain ⟨h1, h2⟩ := hf
    have hn := ht t h1
    refine ⟨h.op e (by rcases h2 with ⟨_, rfl⟩ | ⟨_, rfl⟩ <;> decide), ⟨constWord T t, h.arg e rfl (constWord_lt hn), ?_, ?_⟩, rfl⟩
    · intro hi w' hw'
      subst hi
      have h46 : 46 ∈ t := by rcases h2 with ⟨k, _⟩ | ⟨_, k⟩; exact k; cases k
      rw [h.strtof] at hw'
      unfold constWord
      rw [if_pos h46, hw']
      rfl
    · intro hi v hv
      subst hi
      have h46 : 46 ∉ t := by rcases h2 with ⟨_, k⟩ | ⟨k, _⟩; cases k; exact k
      unfold constWord
      rw [if_neg h46, hv]
      rfl
  | ref i k =>
    obtain ⟨h1, h2⟩ := hf
    have hu : Uses is (labelText k) := ⟨i, d, by rw [e]; exact List.mem_append_right _ List.mem_cons_self⟩
    have hlt := (h.can.labelAt (h.can.refs _ hu)).2
    have hsz := h.size
    refine ⟨h.op e h2, h.arg e ?_ ?_, ?_, rfl⟩
    · show byte i :: mem32 T.endian (lookIn 0 is (labelText k)) = _
      rw [h.pos]
    · rw [h.pos]; omega
    · rw [h.pos, h.length]; exact hlt

theorem Linked.lns {T : Tools} {is : List Item} {K : Ctx} (h : Linked T is K) {N : Nat} {ts : List Bytes} (ht : ∀ t ∈ ts, NumOk T t) :
    ∀ (code : List (Ln × Option Pos)) (A B : List Item), is = A ++ (code.flatMap (fun e => lnItems T e.2 e.1) ++ B) → (∀ e ∈ code, Okay N ts e.1) →
      CodeAt K (progSize A) (code.map Prod.fst) (progSize (A ++ code.flatMap (fun e => lnItems T e.2 e.1)))
  | [], A, B, _, _ => by
    show progSize (A ++ []) = _
    rw [List.append_nil]
  | l :: code, A, B, e, hf => by
    rw [List.flatMap_cons, List.append_assoc] at e
    refine ⟨_, h.ln e (hf l List.mem_cons_self) ht, ?_⟩
    have := h.lns ht code (A ++ lnItems T l.2 l.1) B (by rw [e, List.append_assoc]) (fun x hx => hf x (List.mem_cons_of_mem _ hx))
    rw [List.append_assoc] at this
    rw [List.flatMap_cons]
    exact this

theorem Linked.code_at {T : Tools} {is A B : List Item} {K : Ctx} (h : Linked T is K) {N : Nat} {ts : List Bytes} (ht : ∀ t ∈ ts, NumOk T t) (code : List (Ln × Pos))
    (e : is = A ++ (codeItems T code ++ B)) (hf : ∀ e ∈ code, Okay N ts e.1) : CodeAt K (progSize A) (code.map Prod.fst) (progSize (A ++ codeItems T code)) := by
  have hi : codeItems T code = (code.map (fun e => (e.1, some e.2))).flatMap (fun e => lnItems T e.2 e.1) := by
    unfold codeItems
    rw [List.flatMap_map]
  rw [hi] at e ⊢
  have := h.lns ht _ A B e (fun x hx => by
    obtain ⟨y, hy, rfl⟩ := List.mem_map.mp hx
    exact hf y hy)
  rw [List.map_map] at this
  exact this

/-- Every chunk lies at its label. -/
theorem Linked.placed {T : Tools} {ss : List Bytes} {r : List Ln} {cs : List Chunk} {K : Ctx} (h : Linked T (items T ss r cs) K) {N : Nat} {ts : List Bytes} (ht : ∀ t ∈ ts, NumOk T t)
    (hf : ∀ c ∈ cs, ∀ e ∈ c.code, Okay N ts e.1) : Placed K (cs.map plain) := by
  intro c hc
  obtain ⟨c, hm, rfl⟩ := List.mem_map.mp hc
  obtain ⟨P, Q, e⟩ := List.append_of_mem hm
  obtain ⟨A, hA⟩ : ∃ A, items T ss r cs = A ++ (Item.label (labelText c.label) none :: (codeItems T c.code ++ Q.flatMap (chunkItems T))) := by
    refine ⟨.count ss.length :: (ss.map .str ++ .blank :: (r.flatMap (lnItems T none) ++ .ins 0 none none :: (P.flatMap (chunkItems T) ++ [.blank]))), ?_⟩
    rw [e]
    simp [items, chunkItems]
  have hl := (h.can.look hA).1
  have hcode := h.code_at ht c.code (A := A ++ [Item.label (labelText c.label) none]) (B := Q.flatMap (chunkItems T)) (by rw [hA]; simp) (hf c hm)
  refine ⟨progSize (A ++ [Item.label (labelText c.label) none] ++ codeItems T c.code), ?_, ?_⟩
  · show CodeAt K (K.pos c.label) (c.code.map Prod.fst) _
    rw [h.pos, hl]
    rw [progSize_append, show progSize [Item.label (labelText c.label) none] = 0 from rfl, Nat.add_zero] at hcode
    exact hcode
  · rw [h.length]
    conv_rhs => rw [hA]
    simp only [progSize_append, progSize_cons, show progSize [] = 0 from rfl]
    omega

end Buzz.Link
