import Verif.Lex
import Verif.Props.StringLib

/-
Properties C44 (the lexer terminates), C45 (string literals) and C64 (the tokens of a text), proved about the model of
src/buzz/buzzlex.c in `Verif/Lex.lean`.
-/
namespace Buzz.Props

open Buzz.Msg Buzz.VM Buzz.Lex

/-! ### Specification -/

/-- A file system with finitely many files. -/
def FiniteFS (fs : FS) : Prop := ∃ files : List (Bytes × Bytes), ∀ nm f, fs nm = some f → f ∈ files

/-- The reserved words. -/
def reserved : List (String × TT) :=
  [("var", .var), ("if", .if_), ("else", .else_), ("function", .fun_), ("return", .return_), ("for", .for_), ("while", .while_),
   ("and", .landor), ("or", .landor), ("not", .lnot), ("nil", .nil)]

/-- The bytes of a text. -/
def chars (s : String) : Bytes := s.toList.map (fun c => UInt8.ofNat c.toNat)

/-- Marks made of punctuation, their type and their value; and the characters that may not follow them. -/
def marks : List (String × TT × String × String) :=
  [(";", .statend, "", ""), ("{", .blockopen, "", ""), ("}", .blockclose, "", ""), ("(", .paropen, "", ""), (")", .parclose, "", ""),
   ("[", .idxopen, "", ""), ("]", .idxclose, "", ""), (",", .listsep, "", ""), (".", .dot, "", ""), ("=", .assign, "", "="),
   ("!", .bnot, "", "="), ("==", .cmp, "==", ""), ("!=", .cmp, "!=", ""), ("<", .cmp, "<", "=<"), (">", .cmp, ">", "=>"),
   ("<=", .cmp, "<=", ""), (">=", .cmp, ">=", ""), ("<<", .lrshift, "<<", ""), (">>", .lrshift, ">>", ""), ("+", .addsub, "+", ""),
   ("-", .addsub, "-", ""), ("*", .muldiv, "*", ""), ("/", .muldiv, "/", ""), ("%", .mod, "%", ""), ("^", .pow, "^", ""),
   ("&", .bandor, "&", ""), ("|", .bandor, "|", "")]

/-- A letter. -/
def Letter (c : UInt8) : Prop := (65 ≤ c.toNat ∧ c.toNat ≤ 90) ∨ (97 ≤ c.toNat ∧ c.toNat ≤ 122)

/-- A digit. -/
def Digit (c : UInt8) : Prop := 48 ≤ c.toNat ∧ c.toNat ≤ 57

/-- A character of a name: a letter, a digit or `_`. -/
def NameChar (c : UInt8) : Prop := Letter c ∨ Digit c ∨ c = 95

/-- The texts of tokens: type, text, value, and what may follow. -/
inductive Lexeme : TT → Bytes → Bytes → (UInt8 → Prop) → Prop where
  | mark {s v no : String} {t : TT} : (s, t, v, no) ∈ marks → Lexeme t (chars s) (chars v) (fun d => d ∉ chars no)
  | number {c : UInt8} {ds : Bytes} : Digit c → (∀ d ∈ ds, Digit d ∨ d = 46) → Lexeme .const (c :: ds) (c :: ds) (fun d => ¬ Digit d ∧ d ≠ 46)
  | word {s : String} {t : TT} : (s, t) ∈ reserved → Lexeme t (chars s) (chars s) (fun d => ¬ NameChar d)
  | name {c : UInt8} {cs : Bytes} : Letter c → (∀ d ∈ cs, NameChar d) → (∀ s t, (s, t) ∈ reserved → c :: cs ≠ chars s) →
      ¬ chars "include" <+: c :: cs → Lexeme .id (c :: cs) (c :: cs) (fun d => ¬ NameChar d)
  | string {q : UInt8} {s : Bytes} : q = 34 ∨ q = 39 → (∀ c ∈ s, c ≠ q ∧ c ≠ 92 ∧ c ≠ 0) → Lexeme .string (q :: (s ++ [q])) s (fun _ => True)

/-- Blanks within a line. -/
def Gap (c : UInt8) : Prop := c = 32 ∨ c = 9 ∨ c = 13

/-- What the lexer cannot read: an unknown character, a string that does not end, a name that begins with `include`. -/
inductive Unreadable (fs : FS) : Bytes → Prop where
  | char {c : UInt8} {r : Bytes} : ¬ Gap c → c ≠ 10 → c ≠ 35 → ¬ Letter c → ¬ Digit c → c ≠ 34 → c ≠ 39 → (∀ s t v no, (s, t, v, no) ∈ marks → (chars s).head? ≠ some c) → Unreadable fs (c :: r)
  | quote {q : UInt8} {r : Bytes} : q = 34 ∨ q = 39 → (∀ c ∈ r, c ≠ q) → Unreadable fs (q :: r)
  | incl {d : UInt8} {r : Bytes} : ¬ Gap d → d ≠ 34 → d ≠ 39 → Unreadable fs (chars "include" ++ d :: r)
  | missing {ws nm r : Bytes} {q : UInt8} : (∀ c ∈ ws, Gap c) → q = 34 ∨ q = 39 → (∀ c ∈ nm, c ≠ q ∧ c ≠ 10 ∧ c ≠ 0) → fs nm = none →
      Unreadable fs (chars "include" ++ (ws ++ q :: (nm ++ q :: r)))

/-- The tokens of a text (the rest of file `name` from some line and column on) while the files `active` are being read; `true` if the
text is read to its end, `false` if something unreadable stops the lexer. -/
inductive Lexed (fs : FS) : List Bytes → Bytes → Nat → Nat → Bytes → List Tok → Bool → Prop where
  | done {act : List Bytes} {name : Bytes} {l k : Nat} : Lexed fs act name l k [] [] true
  | bad {act : List Bytes} {name text : Bytes} {l k : Nat} : Unreadable fs text → Lexed fs act name l k text [] false
  | gap {act : List Bytes} {name r : Bytes} {l k : Nat} {c : UInt8} {ts : List Tok} {b : Bool} : Gap c → Lexed fs act name l (k + 1) r ts b → Lexed fs act name l k (c :: r) ts b
  | comment {act : List Bytes} {name cm r : Bytes} {l k : Nat} {ts : List Tok} {b : Bool} : (∀ c ∈ cm, c ≠ 10) → Lexed fs act name (l + 1) 0 r ts b →
      Lexed fs act name l k (35 :: (cm ++ 10 :: r)) ts b
  | newline {act : List Bytes} {name r : Bytes} {l k : Nat} {ts : List Tok} {b : Bool} : Lexed fs act name (l + 1) 0 r ts b →
      Lexed fs act name l k (10 :: r) (⟨.statend, [], l, k, name⟩ :: ts) b
  | tok {act : List Bytes} {name txt v r : Bytes} {l k : Nat} {t : TT} {stop : UInt8 → Prop} {ts : List Tok} {b : Bool} : Lexeme t txt v stop → (∀ d, r.head? = some d → stop d) →
      Lexed fs act name l (k + txt.length) r ts b → Lexed fs act name l k (txt ++ r) (⟨t, v, l, k, name⟩ :: ts) b
  | again {act : List Bytes} {name ws nm r a c : Bytes} {q : UInt8} {l k : Nat} {ts : List Tok} {b : Bool} : (∀ c ∈ ws, Gap c) → q = 34 ∨ q = 39 → (∀ c ∈ nm, c ≠ q ∧ c ≠ 10 ∧ c ≠ 0) →
      fs nm = some (a, c) → a ∈ act → Lexed fs act name l (k + (7 + ws.length + nm.length + 2)) r ts b →
      Lexed fs act name l k (chars "include" ++ (ws ++ q :: (nm ++ q :: r))) ts b
  | incl {act : List Bytes} {name ws nm r a c : Bytes} {q : UInt8} {l k : Nat} {ts us : List Tok} {b : Bool} : (∀ c ∈ ws, Gap c) → q = 34 ∨ q = 39 → (∀ c ∈ nm, c ≠ q ∧ c ≠ 10 ∧ c ≠ 0) →
      fs nm = some (a, c) → a ∉ act → Lexed fs (a :: act) a 1 0 (c ++ [10]) us true → Lexed fs act name l (k + (7 + ws.length + nm.length + 2)) r ts b →
      Lexed fs act name l k (chars "include" ++ (ws ++ q :: (nm ++ q :: r))) (us ++ ts) b
  | inclBad {act : List Bytes} {name ws nm r a c : Bytes} {q : UInt8} {l k : Nat} {us : List Tok} : (∀ c ∈ ws, Gap c) → q = 34 ∨ q = 39 → (∀ c ∈ nm, c ≠ q ∧ c ≠ 10 ∧ c ≠ 0) →
      fs nm = some (a, c) → a ∉ act → Lexed fs (a :: act) a 1 0 (c ++ [10]) us false →
      Lexed fs act name l k (chars "include" ++ (ws ++ q :: (nm ++ q :: r))) us false

/-! ### Fuel -/

theorem nexttok_succ {fs : FS} : ∀ {n : Nat} {lex : List File}, nexttok fs n lex ≠ .hang → nexttok fs (n + 1) lex = nexttok fs n lex
  | 0, _, h => absurd rfl h
  | n + 1, lex, h => by
    conv_lhs => unfold nexttok
    conv_rhs => unfold nexttok
    unfold nexttok at h
    cases hr : lexRound fs lex with
    | fin r => rfl
    | again l =>
      rw [hr] at h
      exact nexttok_succ h

theorem nexttok_mono {fs : FS} {n m : Nat} {lex : List File} (h : nexttok fs n lex ≠ .hang) (hm : n ≤ m) : nexttok fs m lex = nexttok fs n lex := by
  induction m, hm using Nat.le_induction with
  | base => rfl
  | succ k _ ih => rw [nexttok_succ (by rw [ih]; exact h), ih]

theorem tokens_succ {fs : FS} : ∀ {n : Nat} {lex : List File}, tokens fs n lex ≠ .hang → tokens fs (n + 1) lex = tokens fs n lex
  | 0, _, h => absurd rfl h
  | n + 1, lex, h => by
    unfold tokens at h
    have hn : nexttok fs n lex ≠ .hang := by
      intro e
      rw [e] at h
      exact h rfl
    conv_lhs => unfold tokens
    conv_rhs => unfold tokens
    rw [nexttok_succ hn]
    cases hk : nexttok fs n lex with
    | hang => exact absurd hk hn
    | abort => rfl
    | ub => rfl
    | ok p =>
      obtain ⟨t, l⟩ := p
      rw [hk] at h
      simp only [Res.ok_bind] at h ⊢
      split
      · rfl
      · rename_i ht
        rw [if_neg ht] at h
        rw [tokens_succ (by intro e; rw [e] at h; exact h rfl)]

theorem tokens_mono {fs : FS} {n m : Nat} {lex : List File} (h : tokens fs n lex ≠ .hang) (hm : n ≤ m) : tokens fs m lex = tokens fs n lex := by
  induction m, hm using Nat.le_induction with
  | base => rfl
  | succ k _ ih => rw [tokens_succ (by rw [ih]; exact h), ih]

/-! ### Termination -/

/-- The weight of a lexer: the characters left in every open file, those of outer files weighing more. -/
def weight (B D : Nat) : List File → Nat
  | [] => 0
  | f :: below => (f.rest.length + 1) * B ^ (D - below.length) + weight B D below

/-- The open files are different files of the file system. -/
structure Opened (files : List (Bytes × Bytes)) (lex : List File) : Prop where
  nodup : (lex.map File.name).Nodup
  known : ∀ n ∈ lex.map File.name, n ∈ files.map Prod.fst

theorem Opened.depth {files : List (Bytes × Bytes)} {lex : List File} (h : Opened files lex) : lex.length ≤ files.length := by
  have := (List.subperm_of_subset h.nodup (fun n hn => h.known n hn)).length_le
  simpa using this

theorem newString_ne_hang : ∀ (n : Nat) (s : Bytes), newString n s ≠ .hang
  | 0, _ => by simp [newString]
  | n + 1, [] => by simp [newString]
  | n + 1, c :: s => by
    conv_lhs => unfold newString
    split
    · have := newString_ne_hang n s
      cases h : newString n s with
      | hang => exact absurd h this
      | ok v => simp
      | ub => simp
      | abort => simp
    · split
      · simp
      · rename_i d s'
        have := newString_ne_hang n s'
        cases h : newString n s' with
        | hang => exact absurd h this
        | ok v => simp
        | ub => simp
        | abort => simp

theorem adv_length {f : File} {n : Nat} (hn : 1 ≤ n) (hr : f.rest ≠ []) : (f.adv n).rest.length < f.rest.length := by
  have : 0 < f.rest.length := List.length_pos_iff.mpr hr
  simp only [File.adv, List.length_drop]
  omega

theorem ite_of {α : Type} {P : α → Prop} {p : Prop} [Decidable p] {a b : α} (ha : p → P a) (hb : ¬ p → P b) : P (if p then a else b) := by
  by_cases h : p
  · rw [if_pos h]; exact ha h
  · rw [if_neg h]; exact hb h

/-- A result that does not hang and consumes a character of `f`. -/
def Eats (f : File) (x : Res (Tok × File)) : Prop := x ≠ .hang ∧ ∀ t f', x = .ok (t, f') → f'.name = f.name ∧ f'.rest.length < f.rest.length

/-- A token consumes a character. -/
theorem token_eats {f : File} {c : UInt8} {r : Bytes} (hr : f.rest = c :: r) : Eats f (token f c r) := by
  have hne : f.rest ≠ [] := by rw [hr]; simp
  have give : ∀ {t : Tok} {n : Nat}, 1 ≤ n → Eats f (Res.ok (t, f.adv n)) := by
    intro t n hn
    refine ⟨by simp, fun t' f' h => ?_⟩
    cases h
    exact ⟨rfl, adv_length hn hne⟩
  unfold token
  refine ite_of (fun _ => ?_) fun _ => ?_
  · refine ⟨by simp, fun t f' h => ?_⟩
    cases h
    exact ⟨rfl, by rw [hr]; simp⟩
  iterate 9 refine ite_of (fun _ => give (by omega)) fun _ => ?_
  iterate 2 refine ite_of (fun _ => give (by simp)) fun _ => ?_
  iterate 2 refine ite_of (fun _ => ite_of (fun _ => give (by omega)) fun _ => give (by omega)) fun _ => ?_
  refine ite_of (fun _ => ite_of (fun _ => give (by omega)) fun _ => ite_of (fun _ => give (by omega)) fun _ => give (by omega)) fun _ => ?_
  iterate 5 refine ite_of (fun _ => give (by omega)) fun _ => ?_
  refine ite_of (fun _ => ?_) fun _ => give (by omega)
  cases closing c 0 0 r with
  | none => exact give (by omega)
  | some n =>
    simp only
    cases hs : newString n (r ++ [0]) with
    | hang => exact absurd hs (newString_ne_hang _ _)
    | ub => exact ⟨by simp, by simp⟩
    | abort => exact ⟨by simp, by simp⟩
    | ok v => exact give (by omega)

theorem adv_le (f : File) (n : Nat) : (f.adv n).rest.length ≤ f.rest.length := by
  simp only [File.adv, List.length_drop]; omega

/-- An `include` consumes characters; a file entered is new. -/
theorem openIncl_eats {fs : FS} {names : List Bytes} {f : File} (hr : f.rest ≠ []) : match openIncl fs names f with
    | .error f' => f'.name = f.name
    | .skip f' => f'.name = f.name ∧ f'.rest.length < f.rest.length
    | .enter g f' => f'.name = f.name ∧ f'.rest.length < f.rest.length ∧ g.name ∉ names ∧ ∃ nm a c, fs nm = some (a, c) ∧ g = ⟨a, c ++ [10], 1, 0⟩ := by
  have l1 := adv_length (f := f) (n := 7) (by omega) hr
  have l2 := adv_le (f.adv 7) ((f.adv 7).rest.takeWhile isBlank).length
  unfold openIncl
  simp only
  generalize hf1 : (f.adv 7).adv ((f.adv 7).rest.takeWhile isBlank).length = f1 at l2 ⊢
  have n1 : f1.name = f.name := by rw [← hf1]; rfl
  cases hr1 : f1.rest with
  | nil => exact n1
  | cons q r =>
    simp only
    by_cases hq : isQuote q
    · rw [if_pos hq]
      have l3 := adv_le f1 ((r.takeWhile (fun c => c ≠ q ∧ c ≠ 10)).length + 1)
      generalize hf2 : f1.adv ((r.takeWhile (fun c => c ≠ q ∧ c ≠ 10)).length + 1) = f2 at l3 ⊢
      have n2 : f2.name = f.name := by rw [← hf2]; exact n1
      cases hr2 : f2.rest with
      | nil => exact n2
      | cons e r2 =>
        simp only
        have l4 := adv_le f2 1
        by_cases he : e = 10
        · rw [if_pos he]; exact n2
        · rw [if_neg he]
          cases hg : fileNew fs (cstr (r.takeWhile (fun c => c ≠ q ∧ c ≠ 10))) with
          | none => exact n2
          | some g =>
            simp only
            by_cases hm : g.name ∈ names
            · rw [if_pos hm]
              exact ⟨n2, by omega⟩
            · rw [if_neg hm]
              refine ⟨n2, by omega, hm, cstr (r.takeWhile (fun c => c ≠ q ∧ c ≠ 10)), ?_⟩
              unfold fileNew at hg
              obtain ⟨⟨a, c⟩, h1, h2⟩ := Option.map_eq_some_iff.mp hg
              exact ⟨a, c, h1, h2.symm⟩
    · rw [if_neg hq]
      exact n1

theorem weight_top {B D : Nat} (hB : 0 < B) {f f' : File} {below : List File} (h : f'.rest.length < f.rest.length) :
    weight B D (f' :: below) < weight B D (f :: below) := by
  unfold weight
  have : 0 < B ^ (D - below.length) := Nat.pow_pos hB
  have := Nat.mul_lt_mul_of_pos_right (show f'.rest.length + 1 < f.rest.length + 1 by omega) this
  omega

theorem weight_pop {B D : Nat} (hB : 0 < B) (f : File) (below : List File) : weight B D below < weight B D (f :: below) := by
  conv_rhs => unfold weight
  have h1 : 0 < B ^ (D - below.length) := Nat.pow_pos hB
  have h2 := Nat.mul_pos (show 0 < f.rest.length + 1 by omega) h1
  omega

theorem weight_push {B D : Nat} {f f' g : File} {below : List File} (hg : g.rest.length + 1 < B) (hd : below.length + 1 ≤ D) (h : f'.rest.length < f.rest.length) :
    weight B D (g :: f' :: below) < weight B D (f :: below) := by
  have e : B ^ (D - below.length) = B * B ^ (D - (below.length + 1)) := by
    rw [← Nat.pow_succ']
    congr 1
    omega
  have hp : 0 < B ^ (D - (below.length + 1)) := Nat.pow_pos (by omega)
  have h1 := Nat.mul_lt_mul_of_pos_right hg hp
  have h2 := Nat.mul_le_mul_right (B ^ (D - below.length)) (show f'.rest.length + 1 + 1 ≤ f.rest.length + 1 by omega)
  rw [Nat.add_mul, Nat.one_mul] at h2
  simp only [weight, List.length_cons]
  omega

/-- What a round does. -/
theorem round_eats {fs : FS} {files : List (Bytes × Bytes)} (hfs : ∀ nm f, fs nm = some f → f ∈ files) {B : Nat} (hB : 0 < B) (hlen : ∀ f ∈ files, f.2.length + 2 < B)
    {lex : List File} (ho : Opened files lex) : match lexRound fs lex with
    | .again lex' => Opened files lex' ∧ weight B files.length lex' < weight B files.length lex
    | .fin r => r ≠ .hang ∧ ∀ t lex', r = .ok (t, lex') → Opened files lex' ∧ (t.type ≠ .eof → weight B files.length lex' < weight B files.length lex) := by
  cases lex with
  | nil => exact ⟨by simp, by simp⟩
  | cons f below =>
    have hbelow : Opened files below := ⟨(List.nodup_cons.mp ho.nodup).2, fun n hn => ho.known n (by simp only [List.map_cons]; exact List.mem_cons_of_mem _ hn)⟩
    have hsame : ∀ f' : File, f'.name = f.name → Opened files (f' :: below) := by
      intro f' h
      exact ⟨by simpa [h] using ho.nodup, by simpa [h] using ho.known⟩
    have hclose : match closeFile below with
        | .again lex' => Opened files lex' ∧ weight B files.length lex' < weight B files.length (f :: below)
        | .fin r => r ≠ .hang ∧ ∀ t lex', r = .ok (t, lex') → Opened files lex' ∧ (t.type ≠ .eof → weight B files.length lex' < weight B files.length (f :: below)) := by
      unfold closeFile
      by_cases hb : below = []
      · rw [if_pos hb]
        refine ⟨by simp, fun t lex' h => ?_⟩
        cases h
        exact ⟨⟨by simp, by simp⟩, fun h => absurd rfl h⟩
      · rw [if_neg hb]
        exact ⟨hbelow, weight_pop hB f below⟩
    unfold lexRound
    simp only
    have l0 := adv_le f (f.rest.takeWhile isBlank).length
    generalize hf1 : f.adv (f.rest.takeWhile isBlank).length = f1 at l0 ⊢
    have n1 : f1.name = f.name := by rw [← hf1]; rfl
    cases hr : f1.rest with
    | nil => exact hclose
    | cons c r =>
      simp only
      have hlt : ∀ f' : File, f'.rest.length < f1.rest.length → weight B files.length (f' :: below) < weight B files.length (f :: below) :=
        fun f' h => weight_top hB (by omega)
      by_cases h1 : c = 35
      · rw [if_pos h1]
        cases hd : r.dropWhile (· ≠ 10) with
        | nil => exact hclose
        | cons x r2 =>
          refine ⟨hsame _ n1, hlt _ ?_⟩
          have := (List.dropWhile_suffix (l := r) (fun x : UInt8 => decide (x ≠ 10))).length_le
          rw [hd] at this
          rw [hr]
          simp only [List.length_cons] at this ⊢
          omega
      · rw [if_neg h1]
        by_cases h2 : (c :: r).take 7 = includeWord
        · rw [if_pos h2]
          have hi := openIncl_eats (fs := fs) (names := f1.name :: below.map File.name) (f := f1) (by rw [hr]; simp)
          cases ho' : openIncl fs (f1.name :: below.map File.name) f1 with
          | error f' =>
            rw [ho'] at hi
            refine ⟨by simp, fun t lex' h => ?_⟩
            cases h
            exact ⟨hsame _ (by rw [hi, n1]), fun h => absurd rfl h⟩
          | skip f' =>
            rw [ho'] at hi
            exact ⟨hsame _ (by rw [hi.1, n1]), hlt _ hi.2⟩
          | enter g f' =>
            rw [ho'] at hi
            obtain ⟨i1, i2, i3, nm, a, cc, i4, rfl⟩ := hi
            have hm := hfs _ _ i4
            have hop := hsame f' (by rw [i1, n1])
            refine ⟨⟨?_, ?_⟩, weight_push ?_ ?_ (by omega)⟩
            · rw [List.map_cons, List.nodup_cons]
              refine ⟨?_, hop.nodup⟩
              rw [List.map_cons, i1]
              exact i3
            · intro n hn
              rw [List.map_cons, List.mem_cons] at hn
              rcases hn with rfl | hn
              · exact List.mem_map_of_mem (f := Prod.fst) hm
              · exact hop.known n hn
            · have := hlen _ hm
              simp only [List.length_append, List.length_singleton]
              simpa using this
            · exact ho.depth
        · rw [if_neg h2]
          obtain ⟨t1, t2⟩ := token_eats hr
          cases ht : token f1 c r with
          | hang => exact absurd ht t1
          | ub => exact ⟨by simp, by simp⟩
          | abort => exact ⟨by simp, by simp⟩
          | ok p =>
            obtain ⟨t, f'⟩ := p
            obtain ⟨k1, k2⟩ := t2 t f' ht
            refine ⟨by simp, fun t' lex' h => ?_⟩
            simp only [Res.ok_bind, Res.pure_eq, Res.ok.injEq, Prod.mk.injEq] at h
            obtain ⟨rfl, rfl⟩ := h
            exact ⟨hsame _ (by rw [k1, n1]), fun _ => hlt _ k2⟩

theorem nexttok_eats {fs : FS} {files : List (Bytes × Bytes)} (hfs : ∀ nm f, fs nm = some f → f ∈ files) {B : Nat} (hB : 0 < B) (hlen : ∀ f ∈ files, f.2.length + 2 < B) :
    ∀ {n : Nat} {lex : List File}, Opened files lex →
      (weight B files.length lex < n → nexttok fs n lex ≠ .hang) ∧
      ∀ t lex', nexttok fs n lex = .ok (t, lex') → Opened files lex' ∧ (t.type ≠ .eof → weight B files.length lex' < weight B files.length lex)
  | 0, lex, _ => ⟨fun h => (by omega), fun t lex' h => (by cases h)⟩
  | n + 1, lex, ho => by
    have hr := round_eats hfs hB hlen ho
    unfold nexttok
    cases h : lexRound fs lex with
    | fin r =>
      rw [h] at hr
      exact ⟨fun _ => hr.1, hr.2⟩
    | again l =>
      rw [h] at hr
      obtain ⟨k1, k2⟩ := nexttok_eats hfs hB hlen (n := n) hr.1
      refine ⟨fun hw => k1 (by have := hr.2; omega), fun t lex' ht => ?_⟩
      obtain ⟨m1, m2⟩ := k2 t lex' ht
      exact ⟨m1, fun he => lt_trans (m2 he) hr.2⟩

theorem tokens_ends {fs : FS} {files : List (Bytes × Bytes)} (hfs : ∀ nm f, fs nm = some f → f ∈ files) {B : Nat} (hB : 0 < B) (hlen : ∀ f ∈ files, f.2.length + 2 < B) :
    ∀ {n : Nat} {lex : List File}, Opened files lex → weight B files.length lex < n → tokens fs (n + 1) lex ≠ .hang
  | 0, _, _, h => by omega
  | n + 1, lex, ho, h => by
    obtain ⟨k1, k2⟩ := nexttok_eats hfs hB hlen (n := n + 1) ho
    conv_lhs => unfold tokens
    cases hk : nexttok fs (n + 1) lex with
    | hang => exact absurd hk (k1 h)
    | ub => simp
    | abort => simp
    | ok p =>
      obtain ⟨t, lex'⟩ := p
      simp only [Res.ok_bind]
      split
      · simp
      · rename_i ht
        obtain ⟨m1, m2⟩ := k2 t lex' hk
        have := tokens_ends hfs hB hlen (n := n) m1 (by have := m2 ht; omega)
        cases hh : tokens fs (n + 1) lex' <;> simp_all

theorem opened_new {fs : FS} {files : List (Bytes × Bytes)} (hfs : ∀ nm f, fs nm = some f → f ∈ files) {fname : Bytes} {lex : List File} (h : lexNew fs fname = some lex) : Opened files lex := by
  unfold lexNew fileNew at h
  simp only [Option.map_map, Option.map_eq_some_iff] at h
  obtain ⟨f, h1, rfl⟩ := h
  exact ⟨by simp, by simpa using ⟨_, hfs _ _ h1⟩⟩

/-- **C44**: lexing a file terminates, whatever the files contain and however they include each other. -/
theorem C44_terminates (fs : FS) (hfs : FiniteFS fs) (fname : Bytes) (lex : List File) (h : lexNew fs fname = some lex) :
    ∃ N, ∀ n ≥ N, tokens fs n lex ≠ .hang := by
  obtain ⟨files, hf⟩ := hfs
  obtain ⟨B, hB⟩ : ∃ B, ∀ f ∈ files, f.2.length + 2 < B := by
    refine ⟨(files.map (fun f => f.2.length + 3)).sum + 1, fun f hf => ?_⟩
    have := List.single_le_sum (l := files.map (fun f => f.2.length + 3)) (by simp) (f.2.length + 3) (List.mem_map_of_mem hf)
    omega
  have ho := opened_new hf h
  have := tokens_ends hf (B := B + 1) (by omega) (fun f hf => by have := hB f hf; omega) ho (Nat.lt_succ_self _)
  exact ⟨_, fun n hn => by rw [tokens_mono this hn]; exact this⟩

/-- The lexers that token requests lead to. -/
inductive Lexing (fs : FS) (fname : Bytes) : List File → Prop where
  | start {lex : List File} : lexNew fs fname = some lex → Lexing fs fname lex
  | next {n : Nat} {lex lex' : List File} {t : Tok} : Lexing fs fname lex → nexttok fs n lex = .ok (t, lex') → Lexing fs fname lex'

theorem Lexing.opened {fs : FS} {files : List (Bytes × Bytes)} (hfs : ∀ nm f, fs nm = some f → f ∈ files) {fname : Bytes} {lex : List File} (h : Lexing fs fname lex) : Opened files lex := by
  obtain ⟨B, hB⟩ : ∃ B, ∀ f ∈ files, f.2.length + 2 < B := by
    refine ⟨(files.map (fun f => f.2.length + 3)).sum + 1, fun f hf => ?_⟩
    have := List.single_le_sum (l := files.map (fun f => f.2.length + 3)) (by simp) (f.2.length + 3) (List.mem_map_of_mem hf)
    omega
  induction h with
  | start h => exact opened_new hfs h
  | next _ hk ih => exact ((nexttok_eats hfs (B := B + 1) (by omega) (fun f hf => by have := hB f hf; omega) ih).2 _ _ hk).1

/-- **C44**: every token request ends the input or makes progress: some measure of what is left decreases. -/
theorem C44_progress (fs : FS) (hfs : FiniteFS fs) (fname : Bytes) : ∃ left : List File → Nat, ∀ (n : Nat) (lex lex' : List File) (t : Tok), Lexing fs fname lex →
    nexttok fs n lex = .ok (t, lex') → t.type = .eof ∨ left lex' < left lex := by
  obtain ⟨files, hf⟩ := hfs
  obtain ⟨B, hB⟩ : ∃ B, ∀ f ∈ files, f.2.length + 2 < B := by
    refine ⟨(files.map (fun f => f.2.length + 3)).sum + 1, fun f hf => ?_⟩
    have := List.single_le_sum (l := files.map (fun f => f.2.length + 3)) (by simp) (f.2.length + 3) (List.mem_map_of_mem hf)
    omega
  refine ⟨weight (B + 1) files.length, fun n lex lex' t hl hk => ?_⟩
  have := ((nexttok_eats hf (B := B + 1) (by omega) (fun f hf => by have := hB f hf; omega) (hl.opened hf)).2 _ _ hk).2
  by_cases he : t.type = .eof
  · exact Or.inl he
  · exact Or.inr (this he)

/-- **C44**: include cycles are cut: the files being read at any time are different. -/
theorem C44_cycles (fs : FS) (hfs : FiniteFS fs) (fname : Bytes) (lex : List File) (h : Lexing fs fname lex) : (lex.map File.name).Nodup := by
  obtain ⟨files, hf⟩ := hfs
  exact (h.opened hf).nodup

/-- The loop of `buzzlex_newstring` on literal characters. -/
theorem newString_plain : ∀ (s rest : Bytes), (∀ c ∈ s, c ≠ 92) → ∀ n, newString (s.length + n) (s ++ rest) = (newString n rest).bind (fun r => .ok (s ++ r))
  | [], rest, _, n => by cases h : newString n rest <;> simp [h]
  | c :: s, rest, hs, n => by
    have ih := newString_plain s rest (fun c hc => hs c (by simp [hc])) n
    rw [List.length_cons, Nat.add_right_comm, List.cons_append]
    conv_lhs => unfold newString
    rw [if_pos (hs c (by simp)), ih]
    cases newString n rest <;> rfl

theorem closing_plain (q : UInt8) (rest : Bytes) : ∀ (s : Bytes) (a b : UInt8), (∀ c ∈ s, c ≠ q ∧ c ≠ 92) → a ≠ 92 → closing q a b (s ++ q :: rest) = some s.length
  | [], a, b, _, ha => by
    show (if q ≠ q ∨ (a = 92 ∧ b ≠ 92) then _ else some 0) = some 0
    rw [if_neg (by simp [ha])]
  | c :: s, a, b, hs, _ => by
    show (if c ≠ q ∨ (a = 92 ∧ b ≠ 92) then (closing q c a (s ++ q :: rest)).map (· + 1) else some 0) = _
    rw [if_pos (Or.inl (hs c (by simp)).1), closing_plain q rest s c a (fun c hc => hs c (by simp [hc])) (hs c (by simp)).2]
    rfl

/-- The quotes. -/
def QuoteChar (q : UInt8) : Prop := q = 34 ∨ q = 39

theorem token_quote {f : File} {q : UInt8} {r : Bytes} (hq : QuoteChar q) : token f q r = (match closing q 0 0 r with
    | none => .ok (eofTok, f.adv (r.length + 1))
    | some n => (newString n (r ++ [0])).bind (fun v => .ok (⟨.string, cstr v, f.line, f.col, f.name⟩, f.adv (n + 2)))) := by
  rcases hq with rfl | rfl <;> rfl

theorem nexttok_quote {fs : FS} {f : File} {below : List File} {q : UInt8} {r : Bytes} (hr : f.rest = q :: r) (hq : QuoteChar q) (n : Nat) :
    nexttok fs (n + 1) (f :: below) = (token f q r).bind (fun p => .ok (p.1, p.2 :: below)) := by
  have h1 : isBlank q = false := by rcases hq with rfl | rfl <;> rfl
  have h2 : (f.rest.takeWhile isBlank).length = 0 := by rw [hr, List.takeWhile_cons, h1]; rfl
  have h3 : f.adv 0 = f := rfl
  have h4 : (q :: r).take 7 ≠ includeWord := by
    rcases hq with rfl | rfl <;> simp [includeWord]
  have h5 : q ≠ 35 := by rcases hq with rfl | rfl <;> decide
  unfold nexttok lexRound
  simp only
  rw [h2, h3, hr]
  simp only
  rw [if_neg h5, if_neg h4]
  rfl

/-- **C45**: a literal without backslashes yields exactly the characters between the quotes. -/
theorem C45_plain (fs : FS) (f : File) (below : List File) (q : UInt8) (s rest : Bytes) (hq : QuoteChar q) (hs : ∀ c ∈ s, c ≠ q ∧ c ≠ 92 ∧ c ≠ 0)
    (hr : f.rest = q :: (s ++ q :: rest)) (n : Nat) :
    nexttok fs (n + 1) (f :: below) = .ok (⟨.string, s, f.line, f.col, f.name⟩, { f with rest := rest, col := f.col + (s.length + 2) } :: below) := by
  rw [nexttok_quote hr hq, token_quote hq, closing_plain q rest s 0 0 (fun c hc => ⟨(hs c hc).1, (hs c hc).2.1⟩) (by decide)]
  simp only
  have e := newString_plain s (q :: rest ++ [0]) (fun c hc => (hs c hc).2.1) 0
  rw [Nat.add_zero] at e
  have e2 : s ++ q :: rest ++ [0] = s ++ (q :: rest ++ [0]) := by simp
  rw [e2, e]
  simp only [newString, Res.bind, List.append_nil]
  rw [cstr_eq (fun h => (hs 0 h).2.2 rfl)]
  have : (f.adv (s.length + 2)) = { f with rest := rest, col := f.col + (s.length + 2) } := by
    unfold File.adv
    rw [hr, List.drop_succ_cons, show s.length + 1 = (s ++ [q]).length by simp, show s ++ q :: rest = (s ++ [q]) ++ rest by simp, List.drop_left]
  rw [this]

/-- The text of a literal in pieces: characters, and escapes of one character. -/
inductive Piece where
  | char (c : UInt8)
  | esc (c : UInt8)

/-- The source text of a piece. -/
def Piece.source : Piece → Bytes
  | .char c => [c]
  | .esc c => [92, c]

/-- The character a piece stands for. -/
def Piece.means : Piece → UInt8
  | .char c => c
  | .esc 110 => 10
  | .esc 116 => 9
  | .esc c => c

/-- The pieces of a literal in quotes `q`: no bare quotes or backslashes. -/
def Piece.Proper (q : UInt8) : Piece → Prop
  | .char c => c ≠ q ∧ c ≠ 92
  | .esc c => c ≠ 92

/-- The number of escapes. -/
def escapes : List Piece → Nat
  | [] => 0
  | .char _ :: ps => escapes ps
  | .esc _ :: ps => escapes ps + 1

theorem newString_pieces (q : UInt8) : ∀ (ps : List Piece) (rest : Bytes), (∀ p ∈ ps, p.Proper q) →
    newString ((ps.flatMap Piece.source).length) (ps.flatMap Piece.source ++ rest) = (newString (escapes ps) rest).bind (fun r => .ok (ps.map Piece.means ++ r)) := by
  have gen : ∀ (ps : List Piece) (rest : Bytes) (n : Nat), (∀ p ∈ ps, p.Proper q) →
      newString (ps.length + n) (ps.flatMap Piece.source ++ rest) = (newString n rest).bind (fun r => .ok (ps.map Piece.means ++ r)) := by
    intro ps
    induction ps with
    | nil => intro rest n _; cases h : newString n rest <;> simp [h]
    | cons p ps ih =>
      intro rest n hp
      have ih := ih rest n (fun p h => hp p (by simp [h]))
      rw [List.flatMap_cons, List.append_assoc, List.length_cons, Nat.add_right_comm]
      cases p with
      | char c =>
        show newString (ps.length + n + 1) (c :: (ps.flatMap Piece.source ++ rest)) = _
        conv_lhs => unfold newString
        rw [if_pos (hp (.char c) (by simp)).2, ih]
        cases newString n rest <;> rfl
      | esc c =>
        have e : newString (ps.length + n + 1) (92 :: c :: (ps.flatMap Piece.source ++ rest)) =
            (newString (ps.length + n) (ps.flatMap Piece.source ++ rest)).bind (fun r => .ok ((if c = 110 then 10 else if c = 116 then 9 else c) :: r)) := by
          conv_lhs => unfold newString
          rw [if_neg (by simp)]
          rfl
        show newString (ps.length + n + 1) (92 :: c :: (ps.flatMap Piece.source ++ rest)) = _
        rw [e, ih]
        have hm : (if c = 110 then 10 else if c = 116 then 9 else c) = Piece.means (.esc c) := by
          by_cases h1 : c = 110
          · subst h1; rfl
          · by_cases h2 : c = 116
            · subst h2; rfl
            · rw [if_neg h1, if_neg h2]
              unfold Piece.means
              split <;> simp_all
        rw [hm]
        cases newString n rest <;> rfl
  intro ps rest hp
  have hl : (ps.flatMap Piece.source).length = ps.length + escapes ps := by
    clear hp gen
    induction ps with
    | nil => rfl
    | cons p ps ih =>
      rw [List.flatMap_cons, List.length_append, ih]
      cases p <;> simp only [Piece.source, escapes, List.length_cons, List.length_nil] <;> omega
  rw [hl]
  exact gen ps rest _ hp

theorem closing_pieces (q : UInt8) (hq : q ≠ 92) (rest : Bytes) : ∀ (ps : List Piece) (a b : UInt8), (∀ p ∈ ps, p.Proper q) → a ≠ 92 →
    closing q a b (ps.flatMap Piece.source ++ q :: rest) = some (ps.flatMap Piece.source).length
  | [], a, b, _, ha => by
    show (if q ≠ q ∨ (a = 92 ∧ b ≠ 92) then _ else some 0) = some 0
    rw [if_neg (by simp [ha])]
  | .char c :: ps, a, b, hp, _ => by
    have h := hp (.char c) (by simp)
    show (if c ≠ q ∨ (a = 92 ∧ b ≠ 92) then (closing q c a (ps.flatMap Piece.source ++ q :: rest)).map (· + 1) else some 0) = _
    rw [if_pos (Or.inl h.1), closing_pieces q hq rest ps c a (fun p h => hp p (by simp [h])) h.2]
    simp [Piece.source]
  | .esc c :: ps, a, b, hp, ha => by
    have h : c ≠ 92 := hp (.esc c) (by simp)
    show (if (92 : UInt8) ≠ q ∨ (a = 92 ∧ b ≠ 92) then
      (if c ≠ q ∨ ((92 : UInt8) = 92 ∧ a ≠ 92) then (closing q c 92 (ps.flatMap Piece.source ++ q :: rest)).map (· + 1) else some 0).map (· + 1) else some 0) = _
    rw [if_pos (Or.inl (Ne.symm hq)), if_pos (Or.inr ⟨rfl, ha⟩), closing_pieces q hq rest ps c 92 (fun p h => hp p (by simp [h])) h]
    simp [Piece.source]

/-- **C45**: with escapes (other than of backslashes) the value is what the pieces stand for, followed by as many further characters as
there are escapes, beginning with the closing quote; it is undefined if the file ends before. -/
theorem C45_escapes (fs : FS) (f : File) (below : List File) (q : UInt8) (ps : List Piece) (rest : Bytes) (hq : QuoteChar q) (hp : ∀ p ∈ ps, p.Proper q)
    (hr : f.rest = q :: (ps.flatMap Piece.source ++ q :: rest)) (n : Nat) :
    (∀ v, newString (escapes ps) (q :: (rest ++ [0])) = .ok v →
      nexttok fs (n + 1) (f :: below) = .ok (⟨.string, cstr (ps.map Piece.means ++ v), f.line, f.col, f.name⟩,
        { f with rest := rest, col := f.col + ((ps.flatMap Piece.source).length + 2) } :: below)) ∧
    (newString (escapes ps) (q :: (rest ++ [0])) = .ub → nexttok fs (n + 1) (f :: below) = .ub) := by
  have hq92 : q ≠ 92 := by rcases hq with rfl | rfl <;> decide
  have hadv : (f.adv ((ps.flatMap Piece.source).length + 2)) = { f with rest := rest, col := f.col + ((ps.flatMap Piece.source).length + 2) } := by
    unfold File.adv
    rw [hr, List.drop_succ_cons, show (ps.flatMap Piece.source).length + 1 = (ps.flatMap Piece.source ++ [q]).length by simp,
      show ps.flatMap Piece.source ++ q :: rest = (ps.flatMap Piece.source ++ [q]) ++ rest by simp, List.drop_left]
  rw [nexttok_quote hr hq, token_quote hq, closing_pieces q hq92 rest ps 0 0 hp (by decide)]
  simp only
  have e2 : ps.flatMap Piece.source ++ q :: rest ++ [0] = ps.flatMap Piece.source ++ (q :: (rest ++ [0])) := by simp
  rw [e2, newString_pieces q ps _ hp]
  constructor
  · intro v hv
    rw [hv]
    simp only [Res.bind]
    rw [hadv]
  · intro hv
    rw [hv]
    rfl

/-- **C45**: so a literal with an escape never has the value it stands for. -/
theorem C45_wrong (fs : FS) (f : File) (below : List File) (q : UInt8) (ps : List Piece) (rest : Bytes) (hq : QuoteChar q) (hp : ∀ p ∈ ps, p.Proper q) (h0 : ∀ p ∈ ps, p.means ≠ 0)
    (he : 0 < escapes ps) (hr : f.rest = q :: (ps.flatMap Piece.source ++ q :: rest)) (n : Nat) (t : Tok) (lex : List File) (hk : nexttok fs (n + 1) (f :: below) = .ok (t, lex)) :
    ∃ more, t.value = ps.map Piece.means ++ q :: more := by
  obtain ⟨k1, k2⟩ := C45_escapes fs f below q ps rest hq hp hr n
  cases hv : newString (escapes ps) (q :: (rest ++ [0])) with
  | ub => rw [k2 hv] at hk; cases hk
  | ok v =>
    rw [k1 v hv] at hk
    simp only [Res.ok.injEq, Prod.mk.injEq] at hk
    obtain ⟨m, hm⟩ : ∃ m, escapes ps = m + 1 := ⟨escapes ps - 1, by omega⟩
    rw [hm] at hv
    have hq92 : q ≠ 92 := by rcases hq with rfl | rfl <;> decide
    have hq0 : q ≠ 0 := by rcases hq with rfl | rfl <;> decide
    unfold newString at hv
    rw [if_pos hq92] at hv
    obtain ⟨w, _, hw⟩ := Res.bind_eq_ok.mp hv
    cases hw
    rw [← hk.1]
    refine ⟨cstr w, ?_⟩
    show cstr (ps.map Piece.means ++ q :: w) = _
    unfold cstr
    rw [List.takeWhile_append_of_pos (by
      intro c hc
      obtain ⟨p, hp, rfl⟩ := List.mem_map.mp hc
      simpa using h0 p hp), List.takeWhile_cons, if_pos (by simpa using hq0)]
  | hang => exact absurd hv (newString_ne_hang _ _)
  | abort =>
    exfalso
    have : ∀ n s, newString n s ≠ .abort := by
      intro n
      induction n with
      | zero => intro s; simp [newString]
      | succ n ih =>
        intro s
        cases s with
        | nil => simp [newString]
        | cons c s =>
          conv_lhs => unfold newString
          by_cases hc : c ≠ 92
          · rw [if_pos hc]
            have := ih s
            cases h : newString n s with
            | abort => exact absurd h this
            | ok v => simp
            | ub => simp
            | hang => simp
          · rw [if_neg hc]
            cases s with
            | nil => simp
            | cons d s =>
              have := ih s
              simp only
              cases h : newString n s with
              | abort => exact absurd h this
              | ok v => simp
              | ub => simp
              | hang => simp
    exact this _ _ hv

/-! ### The tokens of a text -/

/-- Lexing from a lexer yields these tokens. -/
def Lexes (fs : FS) (lex : List File) (ts : List Tok) : Prop := ∃ n, tokens fs n lex = .ok ts

/-- The tokens when the files `below` remain. -/
def Drains (fs : FS) (below : List File) (ts : List Tok) : Prop := if below = [] then ts = [eofTok] else Lexes fs below ts

theorem skip_run {fs : FS} {lex lex1 : List File} (h : lexRound fs lex = .again lex1) {ts : List Tok} (hl : Lexes fs lex1 ts) : Lexes fs lex ts := by
  obtain ⟨n, hn⟩ := hl
  cases n with
  | zero => cases hn
  | succ n =>
    refine ⟨n + 2, ?_⟩
    have e : nexttok fs (n + 1) lex = nexttok fs n lex1 := by
      conv_lhs => unfold nexttok
      rw [h]
    conv_lhs => unfold tokens
    rw [e]
    unfold tokens at hn
    cases hk : nexttok fs n lex1 with
    | ok p =>
      obtain ⟨t, l⟩ := p
      rw [hk] at hn
      simp only [Res.ok_bind] at hn ⊢
      split
      · rename_i ht
        rw [if_pos ht] at hn
        exact hn
      · rename_i ht
        rw [if_neg ht] at hn
        obtain ⟨r, hr, hr2⟩ := Res.bind_eq_ok.mp hn
        rw [tokens_mono (n := n) (by rw [hr]; simp) (by omega), hr]
        exact hr2
    | ub => rw [hk] at hn; cases hn
    | abort => rw [hk] at hn; cases hn
    | hang => rw [hk] at hn; cases hn

theorem eof_run {fs : FS} {lex lex1 : List File} {t : Tok} (h : lexRound fs lex = .fin (.ok (t, lex1))) (ht : t.type = .eof) : Lexes fs lex [t] := by
  refine ⟨2, ?_⟩
  unfold tokens nexttok
  rw [h]
  simp only [Res.ok_bind]
  rw [if_pos ht]
  rfl

theorem tok_run {fs : FS} {lex lex1 : List File} {t : Tok} (h : lexRound fs lex = .fin (.ok (t, lex1))) (ht : t.type ≠ .eof) {ts : List Tok} (hl : Lexes fs lex1 ts) : Lexes fs lex (t :: ts) := by
  obtain ⟨n, hn⟩ := hl
  refine ⟨n + 2, ?_⟩
  conv_lhs => unfold tokens nexttok
  rw [h]
  simp only [Res.ok_bind]
  rw [if_neg ht, tokens_mono (n := n) (by rw [hn]; simp) (by omega), hn]
  rfl

theorem gap_iff {c : UInt8} : isBlank c = true ↔ Gap c := by
  simp [isBlank, Gap, or_assoc]

theorem letter_iff {c : UInt8} : isAlpha c = true ↔ Letter c := by
  simp only [isAlpha, Letter, Bool.or_eq_true, Bool.and_eq_true, decide_eq_true_eq, UInt8.le_iff_toNat_le]
  rfl

theorem digit_iff {c : UInt8} : isDigit c = true ↔ Digit c := by
  simp only [isDigit, Digit, Bool.and_eq_true, decide_eq_true_eq, UInt8.le_iff_toNat_le]
  first | rfl | exact Iff.rfl

theorem name_iff {c : UInt8} : isId c = true ↔ NameChar c := by
  simp only [isId, NameChar, Bool.or_eq_true, letter_iff, digit_iff, beq_iff_eq, or_assoc]

theorem number_iff {c : UInt8} : isNumber c = true ↔ Digit c ∨ c = 46 := by
  simp only [isNumber, Bool.or_eq_true, digit_iff, beq_iff_eq]

theorem round_gap {fs : FS} {f : File} {below : List File} {c : UInt8} {r : Bytes} (hr : f.rest = c :: r) (hc : Gap c) :
    lexRound fs (f :: below) = lexRound fs ({ f with rest := r, col := f.col + 1 } :: below) := by
  have e : f.adv (f.rest.takeWhile isBlank).length = File.adv { f with rest := r, col := f.col + 1 } (r.takeWhile isBlank).length := by
    unfold File.adv
    rw [hr, List.takeWhile_cons, if_pos (gap_iff.mpr hc), List.length_cons, List.drop_succ_cons]
    simp only [File.mk.injEq, true_and]
    omega
  unfold lexRound
  simp only [e]

theorem round_at {fs : FS} {f : File} {below : List File} {c : UInt8} {r : Bytes} (hr : f.rest = c :: r) (hc : ¬ Gap c) : lexRound fs (f :: below) =
    (if c = 35 then
        match r.dropWhile (· ≠ 10) with
        | [] => closeFile below
        | _ :: r => .again ({ f with rest := r, line := f.line + 1, col := 0 } :: below)
      else if (c :: r).take 7 = includeWord then
        match openIncl fs (f.name :: below.map File.name) f with
        | .error f => .fin (.ok (eofTok, f :: below))
        | .enter g f => .again (g :: f :: below)
        | .skip f => .again (f :: below)
      else .fin (do
        let (t, f) ← token f c r
        pure (t, f :: below))) := by
  have e : f.adv (f.rest.takeWhile isBlank).length = f := by
    rw [hr, List.takeWhile_cons, if_neg (fun h => hc (gap_iff.mp h))]
    rfl
  unfold lexRound
  simp only [e]
  rw [hr]
  rfl

theorem takeWhile_stop {p : UInt8 → Bool} {cs r : Bytes} (h1 : ∀ x ∈ cs, p x = true) (h2 : ∀ d, r.head? = some d → p d = false) : (cs ++ r).takeWhile p = cs := by
  rw [List.takeWhile_append_of_pos h1]
  cases r with
  | nil => simp
  | cons d r => rw [List.takeWhile_cons, h2 d rfl]; simp

/-- The table of marks in bytes. -/
def markBytes : List (Bytes × TT × Bytes × Bytes) :=
  [([59], .statend, [], []), ([123], .blockopen, [], []), ([125], .blockclose, [], []), ([40], .paropen, [], []), ([41], .parclose, [], []),
   ([91], .idxopen, [], []), ([93], .idxclose, [], []), ([44], .listsep, [], []), ([46], .dot, [], []), ([61], .assign, [], [61]),
   ([33], .bnot, [], [61]), ([61, 61], .cmp, [61, 61], []), ([33, 61], .cmp, [33, 61], []), ([60], .cmp, [60], [61, 60]), ([62], .cmp, [62], [61, 62]),
   ([60, 61], .cmp, [60, 61], []), ([62, 61], .cmp, [62, 61], []), ([60, 60], .lrshift, [60, 60], []), ([62, 62], .lrshift, [62, 62], []), ([43], .addsub, [43], []),
   ([45], .addsub, [45], []), ([42], .muldiv, [42], []), ([47], .muldiv, [47], []), ([37], .mod, [37], []), ([94], .pow, [94], []),
   ([38], .bandor, [38], []), ([124], .bandor, [124], [])]

theorem marks_bytes : marks.map (fun m => (chars m.1, m.2.1, chars m.2.2.1, chars m.2.2.2)) = markBytes := by decide +kernel

theorem mark_mem {s v no : String} {t : TT} (h : (s, t, v, no) ∈ marks) : (chars s, t, chars v, chars no) ∈ markBytes := by
  rw [← marks_bytes]
  exact List.mem_map.mpr ⟨_, h, rfl⟩

/-- The reserved words in bytes. -/
def wordBytes : List (Bytes × TT) :=
  [([118, 97, 114], .var), ([105, 102], .if_), ([101, 108, 115, 101], .else_), ([102, 117, 110, 99, 116, 105, 111, 110], .fun_), ([114, 101, 116, 117, 114, 110], .return_),
   ([102, 111, 114], .for_), ([119, 104, 105, 108, 101], .while_), ([97, 110, 100], .landor), ([111, 114], .landor), ([110, 111, 116], .lnot), ([110, 105, 108], .nil)]

theorem words_bytes : reserved.map (fun m => (chars m.1, m.2)) = wordBytes := by decide +kernel

theorem word_mem {s : String} {t : TT} (h : (s, t) ∈ reserved) : (chars s, t) ∈ wordBytes := by
  rw [← words_bytes]
  exact List.mem_map.mpr ⟨_, h, rfl⟩

theorem include_bytes : chars "include" = includeWord := by decide +kernel

theorem keyword_other {v : Bytes} (h : ∀ w t, (w, t) ∈ wordBytes → v ≠ w) : keyword v = .id := by
  unfold keyword
  simp only [if_neg (h _ _ (show (([118, 97, 114] : Bytes), TT.var) ∈ wordBytes by decide)), if_neg (h _ _ (show (([105, 102] : Bytes), TT.if_) ∈ wordBytes by decide)),
    if_neg (h _ _ (show (([101, 108, 115, 101] : Bytes), TT.else_) ∈ wordBytes by decide)), if_neg (h _ _ (show (([102, 117, 110, 99, 116, 105, 111, 110] : Bytes), TT.fun_) ∈ wordBytes by decide)),
    if_neg (h _ _ (show (([114, 101, 116, 117, 114, 110] : Bytes), TT.return_) ∈ wordBytes by decide)), if_neg (h _ _ (show (([102, 111, 114] : Bytes), TT.for_) ∈ wordBytes by decide)),
    if_neg (h _ _ (show (([119, 104, 105, 108, 101] : Bytes), TT.while_) ∈ wordBytes by decide)), if_neg (h _ _ (show (([97, 110, 100] : Bytes), TT.landor) ∈ wordBytes by decide)),
    if_neg (h _ _ (show (([111, 114] : Bytes), TT.landor) ∈ wordBytes by decide)), if_neg (h _ _ (show (([110, 111, 116] : Bytes), TT.lnot) ∈ wordBytes by decide)),
    if_neg (h _ _ (show (([110, 105, 108] : Bytes), TT.nil) ∈ wordBytes by decide))]

theorem letter_range {c : UInt8} (h : Letter c) : ∀ d : UInt8, d.toNat < 65 ∨ (90 < d.toNat ∧ d.toNat < 97) ∨ 122 < d.toNat → c ≠ d := by
  intro d hd e
  subst e
  unfold Letter at h
  omega

theorem digit_range {c : UInt8} (h : Digit c) : ∀ d : UInt8, d.toNat < 48 ∨ 57 < d.toNat → c ≠ d := by
  intro d hd e
  subst e
  unfold Digit at h
  omega

theorem token_word {f : File} {c : UInt8} {r : Bytes} (h : Letter c) :
    token f c r = .ok (⟨keyword (c :: r.takeWhile isId), c :: r.takeWhile isId, f.line, f.col, f.name⟩, f.adv (c :: r.takeWhile isId).length) := by
  have hd : ¬ isDigit c = true := by
    rw [digit_iff]
    unfold Digit
    unfold Letter at h
    omega
  unfold token
  simp only [if_neg (letter_range h 10 (by decide)), if_neg (letter_range h 59 (by decide)), if_neg (letter_range h 123 (by decide)), if_neg (letter_range h 125 (by decide)),
    if_neg (letter_range h 40 (by decide)), if_neg (letter_range h 41 (by decide)), if_neg (letter_range h 91 (by decide)), if_neg (letter_range h 93 (by decide)),
    if_neg (letter_range h 44 (by decide)), if_neg (letter_range h 46 (by decide)), if_neg hd, if_pos (letter_iff.mpr h)]

theorem token_number {f : File} {c : UInt8} {r : Bytes} (h : Digit c) :
    token f c r = .ok (⟨.const, c :: r.takeWhile isNumber, f.line, f.col, f.name⟩, f.adv (c :: r.takeWhile isNumber).length) := by
  unfold token
  simp only [if_neg (digit_range h 10 (by decide)), if_neg (digit_range h 59 (by decide)), if_neg (digit_range h 123 (by decide)), if_neg (digit_range h 125 (by decide)),
    if_neg (digit_range h 40 (by decide)), if_neg (digit_range h 41 (by decide)), if_neg (digit_range h 91 (by decide)), if_neg (digit_range h 93 (by decide)),
    if_neg (digit_range h 44 (by decide)), if_neg (digit_range h 46 (by decide)), if_pos (digit_iff.mpr h)]

theorem include_apart {v r : Bytes} (h1 : ¬ includeWord <+: v) (h2 : ∀ d, r.head? = some d → ¬ NameChar d) : (v ++ r).take 7 ≠ includeWord := by
  intro h
  by_cases hv : 7 ≤ v.length
  · rw [List.take_append_of_le_length hv] at h
    exact h1 (h ▸ List.take_prefix 7 v)
  · have hlen : (v ++ r).length ≥ 7 := by
      have := congrArg List.length h
      rw [List.length_take] at this
      simp only [includeWord, List.length_cons, List.length_nil] at this
      omega
    cases r with
    | nil => simp only [List.append_nil] at hlen; omega
    | cons d r =>
      refine h2 d rfl ?_
      have : includeWord[v.length]? = some d := by
        rw [← h, List.getElem?_take_of_lt (by omega), List.getElem?_append_right (le_refl _)]
        simp
      have hall : ∀ x ∈ includeWord, isId x = true := by decide
      exact name_iff.mp (hall d (List.mem_of_getElem? this))

/-- A token's text gives the token. -/
theorem token_lexeme {f : File} {t : TT} {txt v r : Bytes} {stop : UInt8 → Prop} (h : Lexeme t txt v stop) (hs : ∀ d, r.head? = some d → stop d) :
    ∃ c r', txt ++ r = c :: r' ∧ ¬ Gap c ∧ c ≠ 35 ∧ (c :: r').take 7 ≠ includeWord ∧ t ≠ .eof ∧
      token f c r' = .ok (⟨t, v, f.line, f.col, f.name⟩, f.adv txt.length) := by
  cases h with
  | @mark s v no _ hm =>
    have hm := mark_mem hm
    revert hm hs
    generalize chars s = s
    generalize chars v = v
    generalize chars no = no
    intro hs hm
    have key : ∀ c r', ¬ Gap c → c ≠ 35 → c ≠ 105 → (c :: r').take 7 ≠ includeWord := by
      intro c r' _ _ h e
      simp only [includeWord, List.take_succ_cons, List.cons.injEq] at e
      exact h e.1
    have ng : ∀ c : UInt8, isBlank c = false → ¬ Gap c := fun c h g => by rw [gap_iff.mpr g] at h; cases h
    have h61 : 61 ∈ no → r.head? ≠ some 61 := fun h e => hs 61 e h
    have h60 : 60 ∈ no → r.head? ≠ some 60 := fun h e => hs 60 e h
    have h62 : 62 ∈ no → r.head? ≠ some 62 := fun h e => hs 62 e h
    simp only [markBytes, List.mem_cons, List.not_mem_nil, or_false, Prod.mk.injEq] at hm
    rcases hm with ⟨rfl, rfl, rfl, rfl⟩ | ⟨rfl, rfl, rfl, rfl⟩ | ⟨rfl, rfl, rfl, rfl⟩ | ⟨rfl, rfl, rfl, rfl⟩ | ⟨rfl, rfl, rfl, rfl⟩ | ⟨rfl, rfl, rfl, rfl⟩ | ⟨rfl, rfl, rfl, rfl⟩ | ⟨rfl, rfl, rfl, rfl⟩ | ⟨rfl, rfl, rfl, rfl⟩ | ⟨rfl, rfl, rfl, rfl⟩ | ⟨rfl, rfl, rfl, rfl⟩ | ⟨rfl, rfl, rfl, rfl⟩ | ⟨rfl, rfl, rfl, rfl⟩ | ⟨rfl, rfl, rfl, rfl⟩ | ⟨rfl, rfl, rfl, rfl⟩ | ⟨rfl, rfl, rfl, rfl⟩ | ⟨rfl, rfl, rfl, rfl⟩ | ⟨rfl, rfl, rfl, rfl⟩ | ⟨rfl, rfl, rfl, rfl⟩ | ⟨rfl, rfl, rfl, rfl⟩ | ⟨rfl, rfl, rfl, rfl⟩ | ⟨rfl, rfl, rfl, rfl⟩ | ⟨rfl, rfl, rfl, rfl⟩ | ⟨rfl, rfl, rfl, rfl⟩ | ⟨rfl, rfl, rfl, rfl⟩ | ⟨rfl, rfl, rfl, rfl⟩ | ⟨rfl, rfl, rfl, rfl⟩
    all_goals
      refine ⟨_, _, rfl, ng _ (by decide), by decide, key _ _ (ng _ (by decide)) (by decide) (by decide), by decide, ?_⟩
    all_goals first
      | rfl
      | (show (if r.head? = some 61 then _ else _) = _; rw [if_neg (h61 (by decide))]; rfl)
      | (show (if r.head? = some 60 then _ else if r.head? = some 61 then _ else _) = _; rw [if_neg (h60 (by decide)), if_neg (h61 (by decide))]; rfl)
      | (show (if r.head? = some 62 then _ else if r.head? = some 61 then _ else _) = _; rw [if_neg (h62 (by decide)), if_neg (h61 (by decide))]; rfl)
  | @number c ds h1 h2 =>
    refine ⟨c, ds ++ r, rfl, ?_, digit_range h1 35 (by decide), ?_, by decide, ?_⟩
    · rintro (h | h | h)
      · exact digit_range h1 32 (by decide) h
      · exact digit_range h1 9 (by decide) h
      · exact digit_range h1 13 (by decide) h
    · intro e
      simp only [includeWord, List.take_succ_cons, List.cons.injEq] at e
      exact digit_range h1 105 (by decide) e.1
    · rw [token_number h1, takeWhile_stop (fun x hx => number_iff.mpr (h2 x hx)) (fun d hd => by
        have := hs d hd
        rw [← Bool.not_eq_true, number_iff]
        tauto)]
  | @word s _ hm =>
    have hm := word_mem hm
    revert hm
    generalize chars s = s
    intro hm
    have fin : ∀ (c : UInt8) (cs : Bytes), Letter c → (∀ x ∈ cs, isId x = true) → keyword (c :: cs) = t → t ≠ .eof → ¬ includeWord <+: c :: cs →
        ∃ d r', c :: cs ++ r = d :: r' ∧ ¬ Gap d ∧ d ≠ 35 ∧ (d :: r').take 7 ≠ includeWord ∧ t ≠ .eof ∧
          token f d r' = .ok (⟨t, c :: cs, f.line, f.col, f.name⟩, f.adv (c :: cs).length) := by
      intro c cs h1 h2 h3 h4 h5
      refine ⟨c, cs ++ r, rfl, ?_, letter_range h1 35 (by decide), include_apart (v := c :: cs) h5 hs, h4, ?_⟩
      · rintro (h | h | h)
        · exact letter_range h1 32 (by decide) h
        · exact letter_range h1 9 (by decide) h
        · exact letter_range h1 13 (by decide) h
      · rw [token_word h1, takeWhile_stop h2 (fun d hd => by rw [← Bool.not_eq_true, name_iff]; exact hs d hd), h3]
    simp only [wordBytes, List.mem_cons, List.not_mem_nil, or_false, Prod.mk.injEq] at hm
    rcases hm with ⟨rfl, rfl⟩ | ⟨rfl, rfl⟩ | ⟨rfl, rfl⟩ | ⟨rfl, rfl⟩ | ⟨rfl, rfl⟩ | ⟨rfl, rfl⟩ | ⟨rfl, rfl⟩ | ⟨rfl, rfl⟩ | ⟨rfl, rfl⟩ | ⟨rfl, rfl⟩ | ⟨rfl, rfl⟩
    all_goals exact fin _ _ (letter_iff.mp (by decide)) (by decide) (by decide) (by decide) (by decide)
  | @name c cs h1 h2 h3 h4 =>
    refine ⟨c, cs ++ r, rfl, ?_, letter_range h1 35 (by decide), include_apart (v := c :: cs) (by rw [← include_bytes]; exact h4) hs, by decide, ?_⟩
    · rintro (h | h | h)
      · exact letter_range h1 32 (by decide) h
      · exact letter_range h1 9 (by decide) h
      · exact letter_range h1 13 (by decide) h
    · rw [token_word h1, takeWhile_stop (fun x hx => name_iff.mpr (h2 x hx)) (fun d hd => by rw [← Bool.not_eq_true, name_iff]; exact hs d hd), keyword_other]
      intro w t' hw
      rw [← words_bytes] at hw
      obtain ⟨⟨s, t''⟩, m1, m2⟩ := List.mem_map.mp hw
      simp only [Prod.mk.injEq] at m2
      rw [← m2.1]
      exact h3 s t'' m1
  | @string q _ hq h =>
    refine ⟨q, v ++ q :: r, by simp, ?_, ?_, ?_, by decide, ?_⟩
    · rcases hq with rfl | rfl <;> (intro h; revert h; rw [← gap_iff]; decide)
    · rcases hq with rfl | rfl <;> decide
    · rcases hq with rfl | rfl <;> simp [includeWord]
    · rw [token_quote hq, closing_plain q r v 0 0 (fun c hc => ⟨(h c hc).1, (h c hc).2.1⟩) (by decide)]
      simp only
      have e := newString_plain v (q :: r ++ [0]) (fun c hc => (h c hc).2.1) 0
      rw [Nat.add_zero] at e
      rw [show v ++ q :: r ++ [0] = v ++ (q :: r ++ [0]) by simp, e]
      simp only [newString, Res.bind, List.append_nil]
      rw [cstr_eq (fun k => (h 0 k).2.2 rfl)]
      simp

theorem adv_app {f : File} {x r : Bytes} (h : f.rest = x ++ r) : f.adv x.length = { f with rest := r, col := f.col + x.length } := by
  unfold File.adv
  rw [h, List.drop_left]

theorem gap_not {q : UInt8} (h : QuoteChar q) : ¬ Gap q := by
  rcases h with rfl | rfl <;> (rw [← gap_iff]; decide)

/-- What an `include` leads to. -/
theorem openIncl_at {fs : FS} {names : List Bytes} {f : File} {ws nm r : Bytes} {q : UInt8} (hws : ∀ c ∈ ws, Gap c) (hq : QuoteChar q) (hnm : ∀ c ∈ nm, c ≠ q ∧ c ≠ 10 ∧ c ≠ 0)
    (hr : f.rest = includeWord ++ (ws ++ q :: (nm ++ q :: r))) : openIncl fs names f = (match fs nm with
      | none => .error { f with rest := r, col := f.col + (7 + ws.length + nm.length + 2) }
      | some (a, c) => if a ∈ names then .skip { f with rest := r, col := f.col + (7 + ws.length + nm.length + 2) }
          else .enter ⟨a, c ++ [10], 1, 0⟩ { f with rest := r, col := f.col + (7 + ws.length + nm.length + 2) }) := by
  have e1 : f.adv 7 = { f with rest := ws ++ q :: (nm ++ q :: r), col := f.col + 7 } := adv_app hr
  have hq10 : q ≠ 10 := by rcases hq with rfl | rfl <;> decide
  have hqq : isQuote q = true := by rcases hq with rfl | rfl <;> decide
  have e2 : (ws ++ q :: (nm ++ q :: r)).takeWhile isBlank = ws := takeWhile_stop (fun x hx => gap_iff.mpr (hws x hx)) (fun d hd => by
    cases hd
    rw [← Bool.not_eq_true, gap_iff]
    exact gap_not hq)
  have e3 : (File.adv { f with rest := ws ++ q :: (nm ++ q :: r), col := f.col + 7 } ws.length) = { f with rest := q :: (nm ++ q :: r), col := f.col + 7 + ws.length } := adv_app rfl
  have e4 : (nm ++ q :: r).takeWhile (fun c => decide (c ≠ q ∧ c ≠ 10)) = nm := takeWhile_stop (fun x hx => by simpa using ⟨(hnm x hx).1, (hnm x hx).2.1⟩) (fun d hd => by
    cases hd
    simp)
  have e5 : File.adv { f with rest := q :: (nm ++ q :: r), col := f.col + 7 + ws.length } (nm.length + 1) = { f with rest := q :: r, col := f.col + 7 + ws.length + (nm.length + 1) } :=
    adv_app (x := q :: nm) rfl
  have e6 : File.adv { f with rest := q :: r, col := f.col + 7 + ws.length + (nm.length + 1) } 1 = { f with rest := r, col := f.col + 7 + ws.length + (nm.length + 1) + 1 } :=
    adv_app (x := [q]) rfl
  have e7 : f.col + 7 + ws.length + (nm.length + 1) + 1 = f.col + (7 + ws.length + nm.length + 2) := by omega
  have e8 : cstr nm = nm := cstr_eq (fun k => (hnm 0 k).2.2 rfl)
  unfold openIncl
  simp only [e1, e2, e3, hqq, if_true, e4, e5, if_neg hq10, e6, e7, e8]
  unfold fileNew
  cases fs nm with
  | none => rfl
  | some p => rfl

theorem round_incl {fs : FS} {f : File} {below : List File} {ws nm r : Bytes} {q : UInt8} (hws : ∀ c ∈ ws, Gap c) (hq : QuoteChar q) (hnm : ∀ c ∈ nm, c ≠ q ∧ c ≠ 10 ∧ c ≠ 0)
    (hr : f.rest = chars "include" ++ (ws ++ q :: (nm ++ q :: r))) : lexRound fs (f :: below) = (match fs nm with
      | none => .fin (.ok (eofTok, { f with rest := r, col := f.col + (7 + ws.length + nm.length + 2) } :: below))
      | some (a, c) => if a ∈ f.name :: below.map File.name then .again ({ f with rest := r, col := f.col + (7 + ws.length + nm.length + 2) } :: below)
          else .again (⟨a, c ++ [10], 1, 0⟩ :: { f with rest := r, col := f.col + (7 + ws.length + nm.length + 2) } :: below)) := by
  rw [include_bytes] at hr
  have hr' : f.rest = 105 :: ([110, 99, 108, 117, 100, 101] ++ (ws ++ q :: (nm ++ q :: r))) := hr
  rw [round_at hr' (by rw [← gap_iff]; decide), if_neg (by decide), if_pos (by rfl), openIncl_at hws hq hnm hr]
  cases fs nm with
  | none => rfl
  | some p =>
    obtain ⟨a, c⟩ := p
    simp only
    by_cases h : a ∈ f.name :: below.map File.name
    · rw [if_pos h, if_pos h]
    · rw [if_neg h, if_neg h]

theorem closing_none (q : UInt8) : ∀ (r : Bytes) (a b : UInt8), (∀ c ∈ r, c ≠ q) → closing q a b r = none
  | [], _, _, _ => rfl
  | c :: r, a, b, h => by
    show (if c ≠ q ∨ (a = 92 ∧ b ≠ 92) then (closing q c a r).map (· + 1) else some 0) = none
    rw [if_pos (Or.inl (h c (by simp))), closing_none q r c a (fun c hc => h c (by simp [hc]))]
    rfl

/-- What cannot be read ends the tokens. -/
theorem round_bad {fs : FS} {f : File} {below : List File} (h : Unreadable fs f.rest) : ∃ lex, lexRound fs (f :: below) = .fin (.ok (eofTok, lex)) := by
  generalize hr : f.rest = text at h
  cases h with
  | @char c r h1 h2 h3 h4 h5 h6 h7 h8 =>
    refine ⟨f.adv 1 :: below, ?_⟩
    rw [round_at hr h1, if_neg h3, if_neg (by
      intro e
      simp only [includeWord, List.take_succ_cons, List.cons.injEq] at e
      rw [e.1] at h4
      exact h4 (letter_iff.mp (by decide)))]
    have hm : ∀ x y, x ∈ markBytes → x.1.head? = some y → c ≠ y := by
      intro x y hx hy e
      rw [← marks_bytes] at hx
      obtain ⟨⟨s, t, v, no⟩, k1, k2⟩ := List.mem_map.mp hx
      refine h8 s t v no k1 ?_
      rw [← k2] at hy
      rw [e]
      exact hy
    have n : ∀ y ∈ ([59, 123, 125, 40, 41, 91, 93, 44, 46, 61, 33, 60, 62, 43, 45, 42, 47, 37, 94, 38, 124] : Bytes), c ≠ y := by
      intro y hy
      have : ∃ x ∈ markBytes, x.1.head? = some y := by
        revert y
        decide
      obtain ⟨x, x1, x2⟩ := this
      exact hm x y x1 x2
    have hd : ¬ isDigit c = true := by rw [digit_iff]; exact h5
    have ha : ¬ isAlpha c = true := by rw [letter_iff]; exact h4
    have hq : ¬ isQuote c = true := by simp [isQuote, h6, h7]
    have e : token f c r = .ok (eofTok, f.adv 1) := by
      unfold token
      simp only [if_neg h2, if_neg (n 59 (by decide)), if_neg (n 123 (by decide)), if_neg (n 125 (by decide)), if_neg (n 40 (by decide)), if_neg (n 41 (by decide)), if_neg (n 91 (by decide)),
        if_neg (n 93 (by decide)), if_neg (n 44 (by decide)), if_neg (n 46 (by decide)), if_neg hd, if_neg ha, if_neg (n 61 (by decide)), if_neg (n 33 (by decide)),
        if_neg (not_or.mpr ⟨n 60 (by decide), n 62 (by decide)⟩), if_neg (not_or.mpr ⟨n 43 (by decide), n 45 (by decide)⟩), if_neg (not_or.mpr ⟨n 42 (by decide), n 47 (by decide)⟩),
        if_neg (n 37 (by decide)), if_neg (n 94 (by decide)), if_neg (not_or.mpr ⟨n 38 (by decide), n 124 (by decide)⟩), if_neg hq]
    rw [e]
    rfl
  | @quote q r hq h =>
    refine ⟨f.adv (r.length + 1) :: below, ?_⟩
    rw [round_at hr (gap_not hq), if_neg (by rcases hq with rfl | rfl <;> decide), if_neg (by rcases hq with rfl | rfl <;> simp [includeWord]), token_quote hq, closing_none q r 0 0 h]
    rfl
  | @incl d r h1 h2 h3 =>
    rw [include_bytes] at hr
    have hr' : f.rest = 105 :: ([110, 99, 108, 117, 100, 101] ++ d :: r) := hr
    rw [round_at hr' (by rw [← gap_iff]; decide), if_neg (by decide), if_pos (by rfl)]
    have e1 : f.adv 7 = { f with rest := d :: r, col := f.col + 7 } := adv_app hr
    have e2 : (d :: r).takeWhile isBlank = [] := by
      rw [List.takeWhile_cons, if_neg (fun h => h1 (gap_iff.mp h))]
    have e3 : isQuote d = false := by simp [isQuote, h2, h3]
    have e : openIncl fs (f.name :: below.map File.name) f = .error { f with rest := d :: r, col := f.col + 7 } := by
      unfold openIncl
      simp only [e1, e2, List.length_nil]
      show (if isQuote d = true then _ else _) = _
      rw [if_neg (by rw [e3]; simp)]
      rfl
    rw [e]
    exact ⟨_, rfl⟩
  | @missing ws nm r q h1 h2 h3 h4 =>
    rw [round_incl h1 h2 h3 hr, h4]
    exact ⟨_, rfl⟩

theorem lexed_run {fs : FS} {act : List Bytes} {name text : Bytes} {l k : Nat} {ts : List Tok} {b : Bool} (h : Lexed fs act name l k text ts b) :
    ∀ below : List File, act = name :: below.map File.name →
      (b = true → ∀ us, Drains fs below us → Lexes fs (⟨name, text, l, k⟩ :: below) (ts ++ us)) ∧
      (b = false → Lexes fs (⟨name, text, l, k⟩ :: below) (ts ++ [eofTok])) := by
  induction h with
  | @done act nm l k =>
    intro below hact
    refine ⟨fun _ us hu => ?_, fun h => (by cases h)⟩
    have e : lexRound fs (⟨nm, [], l, k⟩ :: below) = closeFile below := rfl
    unfold Drains at hu
    unfold closeFile at e
    by_cases hb : below = []
    · rw [if_pos hb] at hu e
      subst hu
      exact eof_run e rfl
    · rw [if_neg hb] at hu e
      exact skip_run e hu
  | bad hu =>
    intro below _
    refine ⟨fun h => (by cases h), fun _ => ?_⟩
    obtain ⟨lex, e⟩ := round_bad (f := ⟨_, _, _, _⟩) (below := below) hu
    exact eof_run e rfl
  | @gap act name r l k c ts b hc _ ih =>
    intro below hact
    have e := round_gap (fs := fs) (f := ⟨name, c :: r, l, k⟩) (below := below) rfl hc
    have tr : ∀ us, Lexes fs (⟨name, r, l, k + 1⟩ :: below) us → Lexes fs (⟨name, c :: r, l, k⟩ :: below) us := by
      rintro us ⟨n, hn⟩
      refine ⟨n, ?_⟩
      cases n with
      | zero => cases hn
      | succ n =>
        unfold tokens at hn ⊢
        cases n with
        | zero => cases hn
        | succ n =>
          unfold nexttok at hn ⊢
          rw [e]
          exact hn
    obtain ⟨i1, i2⟩ := ih below hact
    exact ⟨fun hb us hu => tr _ (i1 hb us hu), fun hb => tr _ (i2 hb)⟩
  | @comment act name cm r l k ts b hcm _ ih =>
    intro below hact
    have e : lexRound fs (⟨name, 35 :: (cm ++ 10 :: r), l, k⟩ :: below) = .again (⟨name, r, l + 1, 0⟩ :: below) := by
      rw [round_at rfl (by rw [← gap_iff]; decide), if_pos rfl]
      have : (cm ++ 10 :: r).dropWhile (fun c => decide (c ≠ 10)) = 10 :: r := by
        rw [List.dropWhile_append_of_pos (by intro c hc; simpa using hcm c hc)]
        simp
      rw [this]
    obtain ⟨i1, i2⟩ := ih below hact
    exact ⟨fun hb us hu => skip_run e (i1 hb us hu), fun hb => skip_run e (i2 hb)⟩
  | @newline act name r l k ts b _ ih =>
    intro below hact
    have e : lexRound fs (⟨name, 10 :: r, l, k⟩ :: below) = .fin (.ok (⟨.statend, [], l, k, name⟩, ⟨name, r, l + 1, 0⟩ :: below)) := by
      rw [round_at rfl (by rw [← gap_iff]; decide), if_neg (by decide), if_neg (by simp [includeWord])]
      rfl
    obtain ⟨i1, i2⟩ := ih below hact
    exact ⟨fun hb us hu => tok_run e (by simp) (i1 hb us hu), fun hb => tok_run e (by simp) (i2 hb)⟩
  | @tok act name txt v r l k t stop ts b hl hs _ ih =>
    intro below hact
    obtain ⟨c, r', k1, k2, k3, k4, k5, k6⟩ := token_lexeme (f := ⟨name, txt ++ r, l, k⟩) hl hs
    have e : lexRound fs (⟨name, txt ++ r, l, k⟩ :: below) = .fin (.ok (⟨t, v, l, k, name⟩, ⟨name, r, l, k + txt.length⟩ :: below)) := by
      rw [round_at (f := ⟨name, txt ++ r, l, k⟩) k1 k2, if_neg k3, if_neg k4, k6, adv_app rfl]
      rfl
    obtain ⟨i1, i2⟩ := ih below hact
    exact ⟨fun hb us hu => tok_run e k5 (i1 hb us hu), fun hb => tok_run e k5 (i2 hb)⟩
  | @again act name ws nm r a c q l k ts b h1 h2 h3 h4 h5 _ ih =>
    intro below hact
    have e : lexRound fs (⟨name, chars "include" ++ (ws ++ q :: (nm ++ q :: r)), l, k⟩ :: below) = .again (⟨name, r, l, k + (7 + ws.length + nm.length + 2)⟩ :: below) := by
      rw [round_incl (f := ⟨name, _, l, k⟩) h1 h2 h3 rfl, h4]
      show (if a ∈ name :: below.map File.name then _ else _) = _
      rw [if_pos (hact ▸ h5)]
    obtain ⟨i1, i2⟩ := ih below hact
    exact ⟨fun hb us hu => skip_run e (i1 hb us hu), fun hb => skip_run e (i2 hb)⟩
  | @incl act name ws nm r a c q l k ts us b h1 h2 h3 h4 h5 _ _ ih1 ih2 =>
    intro below hact
    have e : lexRound fs (⟨name, chars "include" ++ (ws ++ q :: (nm ++ q :: r)), l, k⟩ :: below) =
        .again (⟨a, c ++ [10], 1, 0⟩ :: ⟨name, r, l, k + (7 + ws.length + nm.length + 2)⟩ :: below) := by
      rw [round_incl (f := ⟨name, _, l, k⟩) h1 h2 h3 rfl, h4]
      show (if a ∈ name :: below.map File.name then _ else _) = _
      rw [if_neg (hact ▸ h5)]
    have j := (ih1 (⟨name, r, l, k + (7 + ws.length + nm.length + 2)⟩ :: below) (by rw [hact]; rfl)).1 rfl
    obtain ⟨i1, i2⟩ := ih2 below hact
    have dr : ∀ us, Lexes fs (⟨name, r, l, k + (7 + ws.length + nm.length + 2)⟩ :: below) us → Drains fs (⟨name, r, l, k + (7 + ws.length + nm.length + 2)⟩ :: below) us := by
      intro us h
      unfold Drains
      rw [if_neg (by simp)]
      exact h
    refine ⟨fun hb vs hu => skip_run e ?_, fun hb => skip_run e ?_⟩
    · rw [List.append_assoc]
      exact j _ (dr _ (i1 hb vs hu))
    · rw [List.append_assoc]
      exact j _ (dr _ (i2 hb))
  | @inclBad act name ws nm r a c q l k us h1 h2 h3 h4 h5 _ ih =>
    intro below hact
    have e : lexRound fs (⟨name, chars "include" ++ (ws ++ q :: (nm ++ q :: r)), l, k⟩ :: below) =
        .again (⟨a, c ++ [10], 1, 0⟩ :: ⟨name, r, l, k + (7 + ws.length + nm.length + 2)⟩ :: below) := by
      rw [round_incl (f := ⟨name, _, l, k⟩) h1 h2 h3 rfl, h4]
      show (if a ∈ name :: below.map File.name then _ else _) = _
      rw [if_neg (hact ▸ h5)]
    refine ⟨fun h => (by cases h), fun _ => skip_run e ?_⟩
    exact (ih (⟨name, r, l, k + (7 + ws.length + nm.length + 2)⟩ :: below) (by rw [hact]; rfl)).2 rfl

/-- **C64**: the tokens of a file are those of its text: blanks and comments are skipped, included files are read in their place (except
those being read already), and the last token is the end of file.  When something unreadable is met, the tokens end there in the same way. -/
theorem C64_tokens (fs : FS) (fname path text : Bytes) (hf : fs fname = some (path, text)) (ts : List Tok) (b : Bool) (h : Lexed fs [path] path 1 0 (text ++ [10]) ts b) :
    ∃ lex, lexNew fs fname = some lex ∧ ∃ N, ∀ n ≥ N, tokens fs n lex = .ok (ts ++ [eofTok]) := by
  refine ⟨[⟨path, text ++ [10], 1, 0⟩], by simp [lexNew, fileNew, hf], ?_⟩
  have key : Lexes fs [⟨path, text ++ [10], 1, 0⟩] (ts ++ [eofTok]) := by
    obtain ⟨k1, k2⟩ := lexed_run h [] rfl
    cases b with
    | true => exact k1 rfl [eofTok] (by simp [Drains])
    | false => exact k2 rfl
  obtain ⟨N, hN⟩ := key
  exact ⟨N, fun n hn => by rw [tokens_mono (n := N) (by rw [hN]; simp) hn, hN]⟩

/-! ### Concrete cases -/

/-- The types and values of the tokens of a text, without other files. -/
def typed (fs : FS) (s : String) : Res (List (TT × Bytes)) := do
  let ts ← tokens fs 50 [⟨[], chars s ++ [10], 1, 0⟩]
  pure (ts.map (fun t => (t.type, t.value)))

/-- No files. -/
def noFiles : FS := fun _ => none

example : typed noFiles "x1=a<=1.5 # rest" =
    .ok [(.id, [120, 49]), (.assign, []), (.id, [97]), (.cmp, [60, 61]), (.const, [49, 46, 53]), (.eof, [])] := by decide +kernel

/-- A comment takes the end of its line with it; without it there is one more token. -/
example : typed noFiles "x" = .ok [(.id, [120]), (.statend, []), (.eof, [])] ∧ typed noFiles "x#" = .ok [(.id, [120]), (.eof, [])] := by decide +kernel

/-- Two files that include each other: `a` is `x include "b" y`, `b` is `include "a" z`. -/
def twoFiles : FS := fun n =>
  if n = [97] then some ([97], chars "x include \"b\" y") else if n = [98] then some ([98], chars "include \"a\" z") else none

example : FiniteFS twoFiles :=
  ⟨[([97], chars "x include \"b\" y"), ([98], chars "include \"a\" z")], by
    intro nm f h
    unfold twoFiles at h
    split at h
    · cases h; simp
    · split at h
      · cases h; simp
      · cases h⟩

example : (lexNew twoFiles [97]).map (tokens twoFiles 20) = some (.ok [⟨.id, [120], 1, 0, [97]⟩, ⟨.id, [122], 1, 12, [98]⟩, ⟨.statend, [], 1, 13, [98]⟩,
    ⟨.id, [121], 1, 14, [97]⟩, ⟨.statend, [], 1, 15, [97]⟩, eofTok]) := by decide +kernel

/-- A name that begins with `include` ends the program, silently for the parser: the rest is never seen. -/
example : typed noFiles "x;included=1" = .ok [(.id, [120]), (.statend, []), (.eof, [])] := by decide +kernel

/-- A literal with an escape: `"a\n" b` has the value `a`, newline, quote. -/
example : typed noFiles "\"a\\n\" b" = .ok [(.string, [97, 10, 34]), (.id, [98]), (.statend, []), (.eof, [])] := by decide +kernel

/-- Four escapes at the end of the file: reads beyond the buffer. -/
example : typed noFiles "\"\\n\\n\\n\\n\"" = .ub := by decide +kernel

/-- An escaped backslash before an escaped quote ends the literal early: `"\\\" "`. -/
example : typed noFiles "\"\\\\\\\" x" = .ok [(.string, [92, 34, 32]), (.id, [120]), (.statend, []), (.eof, [])] := by decide +kernel

/-- A derivation in the grammar: `x=1`. -/
example : Lexed noFiles [[]] [] 1 0 (chars "x" ++ (chars "=" ++ (chars "1" ++ [10]))) [⟨.id, [120], 1, 0, []⟩, ⟨.assign, [], 1, 1, []⟩, ⟨.const, [49], 1, 2, []⟩, ⟨.statend, [], 1, 3, []⟩] true := by
  have e1 : chars "x" = [120] := by decide +kernel
  have e2 : chars "1" = [49] := by decide +kernel
  have e3 : chars "=" = [61] := by decide +kernel
  have e4 : chars "" = [] := by decide +kernel
  have l1 : Lexeme .id (chars "x") [120] (fun d => ¬ NameChar d) := by
    rw [e1]
    refine .name (letter_iff.mp (by decide)) (by simp) ?_ ?_
    · intro s t h
      have := word_mem h
      intro e
      rw [← e] at this
      revert this
      simp [wordBytes]
    · rw [include_bytes]; decide
  have l2 : Lexeme .assign (chars "=") [] (fun d => d ∉ chars "=") := by
    have := Lexeme.mark (s := "=") (t := .assign) (v := "") (no := "=") (by simp [marks])
    rwa [e4] at this
  have l3 : Lexeme .const (chars "1") [49] (fun d => ¬ Digit d ∧ d ≠ 46) := by
    rw [e2]
    exact .number (digit_iff.mp (by decide)) (by simp)
  refine .tok l1 ?_ ?_
  · intro d hd
    rw [e3] at hd
    cases hd
    rw [← name_iff]
    decide
  · refine .tok l2 ?_ ?_
    · intro d hd
      rw [e2] at hd
      cases hd
      rw [e3]
      decide
    · refine .tok l3 ?_ ?_
      · intro d hd
        cases hd
        rw [← digit_iff]
        decide
      · rw [e1, e2, e3]
        exact .newline .done

end Buzz.Props
