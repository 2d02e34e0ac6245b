import Verif.CompStat

/-
The compiler accepts nothing but the grammar: from any tokens it terminates, it never asks for a token beyond the end of the file, and
when it succeeds, the tokens it has read are a phrase of the grammar that `Comp.comp` accepts.
-/
namespace Buzz.Accept

open Buzz.Msg Buzz.Lex Buzz.Parser Buzz.Comp Buzz.Lang Buzz.Debug
open Buzz.VM (Bin Un)

/-! ### Runs of the parsing functions -/

/-- `x` started in `p` ends; if it succeeds then with `Q`, and it is undefined only in naming the file of a lexer without files. -/
def Wp {α : Type} (x : M α) (p : P) (Q : α → P → Prop) : Prop :=
  match x p with
  | .ok (some (a, p')) => p'.fin = p.fin ∧ Q a p'
  | .ok none => True
  | .ub => p.fin = true
  | .abort => False
  | .hang => False

section wp
variable {α β : Type} {p : P}

theorem wp_of {x : M α} {a : α} {p' : P} {Q : α → P → Prop} (h : x p = .ok (some (a, p'))) (hf : p'.fin = p.fin) (q : Q a p') : Wp x p Q := by
  unfold Wp
  rw [h]
  exact ⟨hf, q⟩

theorem wp_mono {x : M α} {Q Q' : α → P → Prop} (h : Wp x p Q) (k : ∀ a p', Q a p' → Q' a p') : Wp x p Q' := by
  unfold Wp at *
  cases e : x p with
  | ok r =>
    rw [e] at h
    cases r with
    | none => exact trivial
    | some r => exact ⟨h.1, k _ _ h.2⟩
  | ub => rw [e] at h; exact h
  | abort => rw [e] at h; exact h
  | hang => rw [e] at h; exact h

theorem wp_bind {x : M α} {f : α → M β} {Q : β → P → Prop} (h : Wp x p (fun a p1 => Wp (f a) p1 Q)) : Wp (x >>= f) p Q := by
  have e : (x >>= f) p = (match x p with
    | .ok (some (a, p')) => f a p'
    | .ok none => .ok none
    | .ub => .ub
    | .abort => .abort
    | .hang => .hang) := rfl
  unfold Wp at *
  rw [e]
  cases hx : x p with
  | ok r =>
    rw [hx] at h
    cases r with
    | none => exact trivial
    | some r =>
      obtain ⟨a, p1⟩ := r
      obtain ⟨hf, h⟩ := h
      simp only at h ⊢
      rw [← hf]
      exact h
  | ub => rw [hx] at h; exact h
  | abort => rw [hx] at h; exact h
  | hang => rw [hx] at h; exact h

theorem wp_step {x : M α} {f : α → M β} {a : α} {p' : P} {Q : β → P → Prop} (h : x p = .ok (some (a, p'))) (hf : p'.fin = p.fin) (k : Wp (f a) p' Q) :
    Wp (x >>= f) p Q := wp_bind (wp_of h hf k)

theorem wp_tok {f : Tok → M β} {Q : β → P → Prop} (k : Wp (f p.tok) p Q) : Wp (tok >>= f) p Q := wp_step rfl rfl k

theorem wp_ask {g : P → α} {f : α → M β} {Q : β → P → Prop} (k : Wp (f (g p)) p Q) : Wp (ask g >>= f) p Q := wp_step rfl rfl k

theorem wp_emit {l : Ln} {f : Unit → M β} {Q : β → P → Prop} (k : Wp (f ()) (emitted l p) Q) : Wp (emit l >>= f) p Q := wp_step rfl rfl k

theorem wp_done {Q : Ret → P → Prop} (q : Q ⟨0, 0, false⟩ p) : Wp done p Q := wp_of rfl rfl q

theorem wp_pure {a : α} {Q : α → P → Prop} (q : Q a p) : Wp (pure a : M α) p Q := wp_of rfl rfl q

theorem wp_fail {Q : α → P → Prop} : Wp (fail : M α) p Q := trivial

theorem wp_failHere {Q : α → P → Prop} : Wp (failHere : M α) p Q := by
  unfold Wp failHere
  by_cases h : p.tok.type = .eof ∧ p.fin = true
  · rw [if_pos h]
    exact h.2
  · rw [if_neg h]
    exact trivial

theorem wp_ite {c : Prop} [Decidable c] {x y : M α} {Q : α → P → Prop} (h1 : c → Wp x p Q) (h2 : ¬ c → Wp y p Q) : Wp (if c then x else y) p Q := by
  by_cases h : c
  · rw [if_pos h]; exact h1 h
  · rw [if_neg h]; exact h2 h

theorem wp_expect {t : TT} {f : Unit → M β} {Q : β → P → Prop} (k : p.tok.type = t → Wp (f ()) p Q) : Wp (expect t >>= f) p Q := by
  by_cases h : p.tok.type = t
  · refine wp_step (a := ()) (p' := p) ?_ rfl (k h)
    show (if p.tok.type = t then (pure () : M Unit) else fail) p = _
    rw [if_pos h]
    rfl
  · refine wp_bind ?_
    have : expect t p = .ok none := by
      show (if p.tok.type = t then (pure () : M Unit) else fail) p = _
      rw [if_neg h]
      rfl
    unfold Wp
    rw [this]
    exact trivial

end wp

/-! ### The tokens -/

/-- Operators have the texts that the lexer gives them. -/
def TokOk : T2 → Prop
  | (.landor, v) => ∃ o, BinTok .logic (.landor, v) o
  | (.cmp, v) => ∃ o, BinTok .cmp (.cmp, v) o
  | (.addsub, v) => ∃ o, BinTok .sum (.addsub, v) o
  | (.muldiv, v) => ∃ o, BinTok .prod (.muldiv, v) o
  | (.mod, v) => ∃ o, BinTok .modu (.mod, v) o
  | (.pow, v) => ∃ o, BinTok .pow (.pow, v) o
  | (.lrshift, v) => ∃ o, BinTok (.shift false) (.lrshift, v) o
  | (.bandor, v) => ∃ o, BinTok (.andor false) (.bandor, v) o
  | _ => True

/-- Tokens up to the end of the file. -/
def Fine : List T2 → Prop
  | [] => False
  | [t] => t.1 = .eof
  | t :: u :: r => t.1 ≠ .eof ∧ TokOk t ∧ Fine (u :: r)

theorem Fine.tail {t : T2} {r : List T2} (h : Fine (t :: r)) (ht : t.1 ≠ .eof) : Fine r ∧ TokOk t := by
  cases r with
  | nil => exact absurd h ht
  | cons u r => exact ⟨h.2.2, h.2.1⟩

/-- The tokens from the current one on; there are symbol tables. -/
def At (p : P) (ts : List T2) : Prop := View p ts ∧ Fine ts ∧ p.symstack ≠ []

theorem At.view {p : P} {ts : List T2} (h : At p ts) : View p ts := h.1

theorem At.fine {p : P} {ts : List T2} (h : At p ts) : Fine ts := h.2.1

theorem At.syms {p : P} {ts : List T2} (h : At p ts) : p.symstack ≠ [] := h.2.2

theorem At.cons {p : P} {ts : List T2} (h : At p ts) : ∃ r, ts = (p.tok.type, p.tok.value) :: r := ⟨_, h.view.2⟩

theorem At.alike {p p' : P} {ts : List T2} (h : At p ts) (k : p'.tok = p.tok) (k2 : p'.toks = p.toks) (k3 : p'.symstack ≠ []) : At p' ts := by
  refine ⟨?_, h.fine, k3⟩
  have := h.view
  unfold View at this ⊢
  rw [k, k2]
  exact this

theorem cs_syms {p p' : P} (h : cs p' = cs p) : p'.symstack = p.symstack := congrArg CS.symstack h

theorem wp_fetch {β : Type} {p : P} {ts : List T2} {f : Unit → M β} {Q : β → P → Prop} (h : At p ts) (hne : p.tok.type ≠ .eof)
    (k : ∀ p1 r, ts = (p.tok.type, p.tok.value) :: r → At p1 r → cs p1 = cs p → TokOk (p.tok.type, p.tok.value) → Wp (f ()) p1 Q) :
    Wp (Parser.fetch >>= f) p Q := by
  obtain ⟨r, rfl⟩ := h.cons
  have hf := h.fine.tail hne
  obtain ⟨p1, e, hv, hs⟩ := fetch_ok h.view (by rintro rfl; exact hf.1)
  refine wp_step e hs.2.2.2.2.2 (k p1 r rfl ⟨hv, hf.1, ?_⟩ hs.cs hf.2)
  rw [hs.2.2.2.1]
  exact h.syms

/-- Check a token and take it. -/
theorem wp_take {β : Type} {p : P} {ts : List T2} {t : TT} {f : Unit → M β} {Q : β → P → Prop} (h : At p ts) (hne : t ≠ .eof)
    (k : ∀ p1 v r, ts = (t, v) :: r → At p1 r → cs p1 = cs p → TokOk (t, v) → Wp (f ()) p1 Q) :
    Wp (expect t >>= fun _ => Parser.fetch >>= f) p Q := by
  refine wp_expect fun e => ?_
  refine wp_fetch h (by rw [e]; exact hne) fun p1 r hr h1 hc ho => ?_
  rw [e] at hr ho
  exact k p1 _ r hr h1 hc ho

/-! ### Compilations without the code -/

/-- Compiling the phrase turns the one state into the other. -/
def Did (a : Ast) (c c' : CS) : Prop := ∃ o, comp a .val c = some o ∧ o.cs = c'

theorem Did.syms {a : Ast} {c c' : CS} (h : Did a c c') : c'.symstack.length = c.symstack.length := by
  obtain ⟨o, h, rfl⟩ := h
  exact comp_keeps a .val c o h

/-- How a reference is used only matters for the code. -/
theorem comp_mode (a : Ast) (m m' : Mode) {c : CS} {o : Out} (h : comp a m c = some o) : ∃ o', comp a m' c = some o' ∧ o'.cs = o.cs := by
  cases a with
  | id x => cases h; exact ⟨_, rfl, rfl⟩
  | field r s =>
    obtain ⟨a1, b1, h1, h2, rfl⟩ := seq_some h
    obtain ⟨a2, b2, h3, h4, rfl⟩ := seq_some h1
    cases h2
    cases h4
    exact ⟨_, seq_eq (seq_eq h3 rfl) rfl, rfl⟩
  | index r e =>
    obtain ⟨a1, b1, h1, h2, rfl⟩ := seq_some h
    obtain ⟨a2, b2, h3, h4, rfl⟩ := seq_some h1
    obtain ⟨a3, b3, h5, h6, rfl⟩ := seq_some h3
    cases h2
    cases h6
    exact ⟨_, seq_eq (seq_eq (seq_eq h5 rfl) h4) rfl, rfl⟩
  | call r as =>
    obtain ⟨a1, b1, h1, h2, rfl⟩ := seq_some h
    obtain ⟨a2, b2, h3, h4, rfl⟩ := seq_some h1
    obtain ⟨a3, b3, h5, h6, rfl⟩ := seq_some h3
    cases h2
    cases h5
    exact ⟨_, seq_eq (seq_eq (seq_eq (x := put _) rfl h6) h4) rfl, rfl⟩
  | _ => exact ⟨o, h, rfl⟩

theorem Did.mode {a : Ast} {c c' : CS} (h : Did a c c') (m : Mode) : ∃ o, comp a m c = some o ∧ o.cs = c' := by
  obtain ⟨o, h, rfl⟩ := h
  exact comp_mode a .val m h

theorem put_eq (l : List Ln) (c : CS) : put l c = some ⟨l, [], c⟩ := rfl

theorem Did.bin {o : Bin} {a b : Ast} {c c1 c2 : CS} (h1 : Did a c c1) (h2 : Did b c1 c2) : Did (.bin o a b) c c2 := by
  obtain ⟨x, h1, rfl⟩ := h1
  obtain ⟨y, h2, rfl⟩ := h2
  exact ⟨_, seq_eq (seq_eq h1 h2) rfl, rfl⟩

theorem Did.un {o : Un} {a : Ast} {c c1 : CS} (h : Did a c c1) : Did (.un o a) c c1 := by
  obtain ⟨x, h, rfl⟩ := h
  exact ⟨_, seq_eq h rfl, rfl⟩

/-- The state after a key. -/
def keyed (k : Key) (c : CS) : CS :=
  match k with
  | .name s => { c with strings := (stringAdd c.strings s).1 }
  | .num _ => c

theorem keyC_did (k : Key) (c : CS) : ∃ o, keyC k c = some o ∧ o.cs = keyed k c := by cases k <;> exact ⟨_, rfl, rfl⟩

theorem Did.tset {t a : Ast} {k : Key} {c c1 c2 : CS} (h1 : Did t c c1) (h2 : Did a (keyed k c1) c2) : Did (.tset t k a) c c2 := by
  obtain ⟨x, h1, rfl⟩ := h1
  obtain ⟨y, h2, rfl⟩ := h2
  obtain ⟨z, h3, e⟩ := keyC_did k x.cs
  rw [← e] at h2
  exact ⟨_, seq_eq (seq_eq (seq_eq (seq_eq h1 rfl) h3) h2) rfl, rfl⟩

theorem Did.field {r : Ast} {s : Bytes} {c c1 : CS} (h : Did r c c1) : Did (.field r s) c { c1 with strings := (stringAdd c1.strings s).1 } := by
  obtain ⟨x, h, rfl⟩ := h
  exact ⟨_, seq_eq (seq_eq h rfl) rfl, rfl⟩

theorem Did.index {r e : Ast} {c c1 c2 : CS} (h1 : Did r c c1) (h2 : Did e c1 c2) : Did (.index r e) c c2 := by
  obtain ⟨x, h1, rfl⟩ := h1
  obtain ⟨y, h2, rfl⟩ := h2
  exact ⟨_, seq_eq (seq_eq (seq_eq h1 rfl) h2) rfl, rfl⟩

theorem Did.call {r as : Ast} {c c1 c2 : CS} (h1 : Did r c c1) (h2 : Did as c1 c2) : Did (.call r as) c c2 := by
  obtain ⟨x, k1, rfl⟩ := h1.mode .callee
  obtain ⟨y, h2, rfl⟩ := h2
  exact ⟨_, seq_eq (seq_eq (seq_eq (x := put _) rfl k1) h2) rfl, rfl⟩

theorem Did.arg {as a : Ast} {c c1 c2 : CS} (h1 : Did as c c1) (h2 : Did a c1 c2) : Did (.arg as a) c c2 := by
  obtain ⟨x, h1, rfl⟩ := h1
  obtain ⟨y, h2, rfl⟩ := h2
  exact ⟨_, seq_eq h1 h2, rfl⟩

theorem Did.seq {s l : Ast} {c c1 c2 : CS} (h1 : Did s c c1) (h2 : Did l c1 c2) : Did (.seq s l) c c2 := by
  obtain ⟨x, h1, rfl⟩ := h1
  obtain ⟨y, h2, rfl⟩ := h2
  exact ⟨_, seq_eq h1 h2, rfl⟩

theorem did_skip (c : CS) : Did .skip c c := ⟨_, rfl, rfl⟩

theorem did_noArg (c : CS) : Did .noArg c c := ⟨_, rfl, rfl⟩

theorem did_id (x : Bytes) (c : CS) : Did (.id x) c (known x c) := ⟨_, rfl, rfl⟩

theorem Did.assign {r e : Ast} {c c1 c2 : CS} (h1 : Did r c c1) (h2 : Did e c1 c2) : Did (.assign r e) c c2 := by
  obtain ⟨x, k1, rfl⟩ := h1.mode .lval
  obtain ⟨y, h2, rfl⟩ := h2
  refine ⟨⟨(x.code ++ y.code) ++ storeOp r c, (x.news ++ y.news) ++ [], y.cs⟩, ?_, rfl⟩
  show (comp r .lval ⊹ comp e .val ⊹ put (storeOp r c)) c = _
  exact seq_eq (seq_eq k1 h2) (put_eq _ _)

theorem Did.run {r : Ast} {c c1 : CS} (h : Did r c c1) : Did (.run r) c c1 := by
  obtain ⟨x, h, rfl⟩ := h
  exact ⟨_, seq_eq h rfl, rfl⟩

theorem Did.ret {r : Ast} {c c1 : CS} (h : Did r c c1) : Did (.ret r) c c1 := by
  obtain ⟨x, h, rfl⟩ := h
  exact ⟨_, seq_eq h rfl, rfl⟩

/-- More labels. -/
def lab (n : Nat) (c : CS) : CS := { c with labels := c.labels + n }

theorem Did.ifs {b a : Ast} {c c1 c2 : CS} (h1 : Did b (lab 2 c) c1) (h2 : Did a c1 c2) : Did (.ifs b a) c c2 := by
  obtain ⟨x, h1, rfl⟩ := h1
  obtain ⟨y, h2, rfl⟩ := h2
  have := seq_eq (seq_eq (seq_eq h1 (put_eq [.ref 45 c.labels] _)) h2) (put_eq [.lab c.labels] _)
  exact ⟨_, this, rfl⟩

theorem Did.ite {b a d : Ast} {c c1 c2 c3 : CS} (h1 : Did b (lab 2 c) c1) (h2 : Did a c1 c2) (h3 : Did d c2 c3) : Did (.ite b a d) c c3 := by
  obtain ⟨x, h1, rfl⟩ := h1
  obtain ⟨y, h2, rfl⟩ := h2
  obtain ⟨z, h3, rfl⟩ := h3
  have := seq_eq (seq_eq (seq_eq (seq_eq (seq_eq h1 (put_eq [.ref 45 c.labels] _)) h2) (put_eq [.ref 44 (c.labels + 1), .lab c.labels] _)) h3) (put_eq [.lab (c.labels + 1)] _)
  exact ⟨_, this, rfl⟩

theorem Did.while_ {b a : Ast} {c c1 c2 : CS} (h1 : Did b (lab 2 c) c1) (h2 : Did a c1 c2) : Did (.while_ b a) c c2 := by
  obtain ⟨x, h1, rfl⟩ := h1
  obtain ⟨y, h2, rfl⟩ := h2
  have := seq_eq (seq_eq (seq_eq (seq_eq (put_eq [.lab c.labels] _) h1) (put_eq [.ref 45 (c.labels + 1)] _)) h2) (put_eq [.ref 44 c.labels, .lab (c.labels + 1)] _)
  exact ⟨_, this, rfl⟩

theorem Did.for_ {i b u a : Ast} {c c1 c2 c3 c4 : CS} (h1 : Did i (lab 4 c) c1) (h2 : Did b c1 c2) (h3 : Did u c2 c3) (h4 : Did a c3 c4) : Did (.for_ i b u a) c c4 := by
  obtain ⟨x, h1, rfl⟩ := h1
  obtain ⟨y, h2, rfl⟩ := h2
  obtain ⟨z, h3, rfl⟩ := h3
  obtain ⟨w, h4, rfl⟩ := h4
  have := seq_eq (seq_eq (seq_eq (seq_eq (seq_eq (seq_eq (seq_eq h1 (put_eq [.lab c.labels] _)) h2) (put_eq [.ref 46 (c.labels + 2), .ref 44 (c.labels + 3), .lab (c.labels + 1)] _)) h3)
    (put_eq [.ref 44 c.labels, .lab (c.labels + 2)] _)) h4) (put_eq [.ref 44 (c.labels + 1), .lab (c.labels + 3)] _)
  exact ⟨_, this, rfl⟩

/-- Without the top symbol table. -/
def outer (c : CS) : CS := { c with symstack := c.symstack.tail }

theorem did_body {b : Ast} {c c' : CS} (h : Did b c c') : ∃ o, bodyC (comp b .val) c = some o ∧ o.cs = outer c' := by
  obtain ⟨x, h, rfl⟩ := h
  unfold bodyC
  rw [h]
  exact ⟨_, rfl, rfl⟩

/-- The scope of a block. -/
def inner (c : CS) : CS := { c with symstack := (if c.symstack.length = 1 then [] else c.symstack.headD []) :: c.symstack }

theorem Did.block {b : Ast} {c c' : CS} (h : Did b (inner c) c') : Did (.block b) c (outer c') := did_body h

theorem did_chunk {b : Ast} {sym : Option (Bytes × Nat)} {en : CS → CS} {c c' : CS} (h : Did b (en (lab 1 c)) c') :
    ∃ o, chunkC sym en (comp b .val) c = some o ∧ o.cs = outer c' := by
  obtain ⟨o, h, e⟩ := did_body h
  unfold chunkC
  rw [show (bodyC (comp b .val) (en { c with labels := c.labels + 1 })) = some o from h]
  exact ⟨_, rfl, e⟩

theorem Did.lam {ps : List Bytes} {b : Ast} {c c' : CS} (h : Did b (ps.foldl addParam (scope (lab 1 c))) c') : Did (.lam ps b) c (outer c') := by
  obtain ⟨o, h, e⟩ := did_chunk (sym := none) (en := fun cs => ps.foldl addParam (scope cs)) h
  refine ⟨_, seq_eq (x := put [.ref 40 c.labels]) rfl h, e⟩

theorem Did.func {f : Bytes} {ps : List Bytes} {b : Ast} {c c' : CS} (hl : ¬ c.symstack.length > 1) (h : Did b (ps.foldl addParam (scope (lab 1 (known f c)))) c') :
    Did (.func f ps b) c (outer c') := by
  obtain ⟨o, h, e⟩ := did_chunk (sym := some (f, (symOf f c).gen)) (en := fun cs => ps.foldl addParam (scope cs)) h
  refine ⟨o, ?_, e⟩
  simp only [comp]
  rw [if_neg hl]
  exact h

/-- The state after a declaration. -/
def declAs (x : Bytes) (c : CS) : CS := if c.symstack.length = 1 then addGlobal x c else addLocal x c

theorem did_decl {x : Bytes} {c : CS} (h : isLocal x c = false) : Did (.decl x) c (declAs x c) := by
  unfold Did declAs
  simp only [comp]
  rw [h]
  simp only [Bool.false_eq_true, if_false]
  split <;> exact ⟨_, rfl, rfl⟩

theorem did_init {x : Bytes} {e : Ast} {c c' : CS} (h : isLocal x c = false) (k : Did e (declAs x c) c') : Did (.init x e) c c' := by
  unfold Did declAs at *
  simp only [comp]
  rw [h]
  simp only [Bool.false_eq_true, if_false]
  obtain ⟨o, k, rfl⟩ := k
  by_cases hl : c.symstack.length = 1
  · rw [if_pos hl] at k ⊢
    exact ⟨_, seq_eq (seq_eq (x := put _) rfl k) rfl, rfl⟩
  · rw [if_neg hl] at k ⊢
    exact ⟨_, seq_eq (seq_eq (x := put _) rfl k) rfl, rfl⟩

end Buzz.Accept
