import Verif.ParseSound

/-
What each parsing function has done when it succeeds.
-/
namespace Buzz.Accept

open Buzz.Msg Buzz.Lex Buzz.Parser Buzz.Comp Buzz.Lang Buzz.Debug
open Buzz.VM (Bin Un)

/-- The tokens begin with the rest of a phrase that began with `us0` in the state `c0`. -/
def Found (c : Cat) (us0 ts : List T2) (c0 : CS) (p' : P) (K : Ast → Prop) : Prop :=
  ∃ us rest a, ts = us ++ rest ∧ At p' rest ∧ Syn c (us0 ++ us) a ∧ Did a c0 (cs p') ∧ K a

/-- A phrase was read. -/
def Phrase (c : Cat) (ts : List T2) (p p' : P) (K : Ast → Prop) : Prop := Found c [] ts (cs p) p' K

/-- The rest of a phrase was read. -/
def Loop (c : Cat) (ts : List T2) (p p' : P) : Prop :=
  ∀ c0 us0 a0, Syn c us0 a0 → Did a0 c0 (cs p) → Found c us0 ts c0 p' (fun _ => True)

/-- What would continue an operand with a sign. -/
def tight : List TT := [.bandor, .lrshift, .pow]

/-- A statement is followed by what it needs. -/
def Closed (p' : P) (a : Ast) : Prop := (bare a = true → p'.tok.type = .blockclose) ∧ (openIf a = true → p'.tok.type ≠ .else_)

/-- Statements were read. -/
def Stats (ts : List T2) (p p' : P) : Prop :=
  Found .stats [] ts (cs p) p' (fun a => p'.tok.type = .blockclose ∨ (p'.tok.type = .eof ∧ complete a = true))

/-- Whether a reference is a call. -/
def isCall : Ast → Bool
  | .call _ _ => true
  | _ => false

/-- What a parsing function has done. -/
def Post : NT → List T2 → P → Ret → P → Prop
  | .statlist, ts, p, _, p' => Stats ts p p'
  | .statRest, ts, p, _, p' => Stats ts p p'
  | .stat, ts, p, _, p' => if p.tok.type = .blockclose then p' = p else Phrase .stat ts p p' (Closed p')
  | .block true, ts, p, _, p' => ∃ us rest b, ts = us ++ rest ∧ At p' rest ∧ Syn .blk us b ∧ Did (.block b) (cs p) (cs p')
  | .block false, ts, p, _, p' => ∃ us rest b c, ts = us ++ rest ∧ At p' rest ∧ Syn .blk us b ∧ Did b (cs p) c ∧ outer (cs p') = outer c
  | .blockstat, ts, p, _, p' => Phrase .sub ts p p' (Closed p')
  | .var, ts, p, _, p' => Phrase .stat ts p p' (Closed p')
  | .fun_, ts, p, _, p' => Phrase .stat ts p p' (Closed p')
  | .if_, ts, p, _, p' => Phrase .stat ts p p' (Closed p')
  | .for_, ts, p, _, p' => Phrase .stat ts p p' (Closed p')
  | .while_, ts, p, _, p' => Phrase .stat ts p p' (Closed p')
  | .condlist, ts, p, _, p' => (p.tok.type = .parclose ∧ p' = p) ∨ Phrase .args ts p p' (fun _ => True)
  | .condlistRest _, ts, p, _, p' => Loop .args ts p p'
  | .cond, ts, p, _, p' => Phrase .cond ts p p' (fun _ => True)
  | .condRest, ts, p, _, p' => Loop .logic ts p p'
  | .cmp, ts, p, _, p' => Phrase .cmp ts p p' (fun _ => True)
  | .expr, ts, p, _, p' => Phrase .expr ts p p' (fun _ => True)
  | .entry, ts, p, _, p' => ∃ v w t k us rest a, ts = (.dot, v) :: t :: (.assign, w) :: (us ++ rest) ∧ At p' rest ∧ KeyTok t k ∧ Syn .expr us a ∧
      Did a (keyed k (cs p)) (cs p')
  | .entries, ts, p, _, p' => Loop .table ts p p'
  | .sumRest, ts, p, _, p' => Loop .sum ts p p'
  | .prod, ts, p, _, p' => Phrase .prod ts p p' (fun _ => True)
  | .prodRest, ts, p, _, p' => Loop .prod ts p p'
  | .modulo, ts, p, _, p' => Phrase .modu ts p p' (fun _ => True)
  | .modRest, ts, p, _, p' => Loop .modu ts p p'
  | .power, ts, p, _, p' => Phrase .pow ts p p' (fun _ => p'.tok.type ∉ tight)
  | .shift, ts, p, _, p' => ∃ e, Phrase (.shift e) ts p p' (fun _ => p'.tok.type ≠ .bandor ∧ p'.tok.type ≠ .lrshift ∧ (e = true → p'.tok.type ∉ tight))
  | .shiftRest, ts, p, _, p' => ∀ c0 us0 a0 e0, Syn (.shift e0) us0 a0 → Did a0 c0 (cs p) → p.tok.type ≠ .bandor → (e0 = true → p.tok.type ∉ tight) →
      ∃ e, Found (.shift e) us0 ts c0 p' (fun _ => p'.tok.type ≠ .bandor ∧ p'.tok.type ≠ .lrshift ∧ (e = true → p'.tok.type ∉ tight))
  | .andor, ts, p, _, p' => ∃ e, Phrase (.andor e) ts p p' (fun _ => p'.tok.type ≠ .bandor ∧ (e = true → p'.tok.type ∉ tight))
  | .andorRest, ts, p, _, p' => ∀ c0 us0 a0 e0, Syn (.andor e0) us0 a0 → Did a0 c0 (cs p) → (e0 = true → p.tok.type ∉ tight) →
      ∃ e, Found (.andor e) us0 ts c0 p' (fun _ => p'.tok.type ≠ .bandor ∧ (e = true → p'.tok.type ∉ tight))
  | .bnot, ts, p, _, p' => ∃ e, Phrase (.bnot e) ts p p' (fun _ => e = true → p'.tok.type ∉ tight)
  | .operand, ts, p, _, p' => ∃ e, Phrase (.opnd e) ts p p' (fun _ => e = true → p'.tok.type ∉ tight)
  | .command, ts, p, _, p' => Phrase .simple ts p p' (Closed p')
  | .idlist, ts, p, _, p' => ∃ us rest xs, ts = us ++ rest ∧ At p' rest ∧ Ids us xs ∧ cs p' = xs.foldl addParam (cs p)
  | .idlistRest, ts, p, _, p' => ∃ us rest xs, ts = us ++ rest ∧ At p' rest ∧ cs p' = xs.foldl addParam (cs p) ∧
      ((us = [] ∧ xs = []) ∨ ∃ v us', us = (.listsep, v) :: us' ∧ Ids us' xs ∧ xs ≠ [])
  | .idref _, ts, p, r, p' => Phrase .ref ts p p' (fun a => r.info = -2 ↔ isCall a = true)
  | .idrefRest _ info _ _, ts, p, r, p' => ∀ c0 us0 a0, Syn .ref us0 a0 → Did a0 c0 (cs p) → (info = -2 ↔ isCall a0 = true) →
      Found .ref us0 ts c0 p' (fun a => r.info = -2 ↔ isCall a = true)
  | .lambda, ts, p, _, p' => Phrase (.opnd false) ts p p' (fun _ => True)

/-- How many calls a parsing function may nest before it takes a token. -/
def rank : NT → Nat
  | .statlist => 4
  | .statRest => 3
  | .blockstat => 3
  | .stat => 2
  | .command => 1
  | .condlist => 11
  | .cond => 10
  | .cmp => 9
  | .expr => 8
  | .prod => 7
  | .modulo => 6
  | .power => 5
  | .shift => 4
  | .andor => 3
  | .bnot => 2
  | .operand => 1
  | _ => 0

/-- Enough fuel. -/
def need (nt : NT) (ts : List T2) : Nat := 16 * ts.length + rank nt

/-- The calls do what they should. -/
def Sound (R : NT → M Ret) (n : Nat) : Prop :=
  ∀ nt ts p, At p ts → (nt = .entry → p.tok.type = .dot) → need nt ts < n → Wp (R nt) p (Post nt ts p)

section
variable {R : NT → M Ret} {n : Nat} {p : P} {ts : List T2}

theorem wp_call {β : Type} {f : Ret → M β} {Q : β → P → Prop} (ih : Sound R n) (nt : NT) (h : At p ts) (hp : nt = .entry → p.tok.type = .dot) (hn : need nt ts < n)
    (k : ∀ r p', Post nt ts p r p' → Wp (f r) p' Q) : Wp (R nt >>= f) p Q :=
  wp_bind (wp_mono (ih nt ts p h hp hn) k)

theorem wp_last {Q : Ret → P → Prop} (ih : Sound R n) (nt : NT) (h : At p ts) (hp : nt = .entry → p.tok.type = .dot) (hn : need nt ts < n)
    (k : ∀ r p', Post nt ts p r p' → Q r p') : Wp (R nt) p Q :=
  wp_mono (ih nt ts p h hp hn) k

theorem len_app {ts us rest : List T2} (h : ts = us ++ rest) : rest.length ≤ ts.length := by
  subst h
  simp

theorem len_syn {c : Cat} {ts us rest : List T2} {a : Ast} (h : ts = us ++ rest) (hs : Syn c us a) (h1 : c ≠ .sub) (h2 : c ≠ .stats) : rest.length < ts.length := by
  have := List.length_pos_iff.mpr (syn_ne hs h1 h2)
  subst h
  simp
  omega

/-- A phrase consumes tokens. -/
theorem Phrase.len {c : Cat} {p p' : P} {K : Ast → Prop} (h : Phrase c ts p p' K) (h1 : c ≠ .sub) (h2 : c ≠ .stats) :
    ∃ us rest a, ts = us ++ rest ∧ At p' rest ∧ Syn c us a ∧ Did a (cs p) (cs p') ∧ K a ∧ rest.length < ts.length := by
  obtain ⟨us, rest, a, e, h, hs, hd, k⟩ := h
  exact ⟨us, rest, a, e, h, hs, hd, k, len_syn e hs h1 h2⟩

/-- The end of a loop. -/
theorem Loop.nil {c : Cat} (h : At p ts) : Loop c ts p p := by
  intro c0 us0 a0 hs hd
  exact ⟨[], ts, a0, rfl, h, by simpa using hs, hd, trivial⟩

/-- One more round of a loop. -/
theorem Found.more {c : Cat} {us0 us ts : List T2} {t : T2} {c0 : CS} {p' : P} {K : Ast → Prop} (h : Found c (us0 ++ t :: us) ts c0 p' K) : Found c us0 (t :: (us ++ ts)) c0 p' K := by
  obtain ⟨vs, rest, a, rfl, h, hs, hd, k⟩ := h
  exact ⟨t :: (us ++ vs), rest, a, by simp, h, by simpa using hs, hd, k⟩

/-- A loop after its first part. -/
theorem Loop.after {c : Cat} {us ts : List T2} {a : Ast} {p p1 p2 : P} (hs : Syn c us a) (hd : Did a (cs p) (cs p1)) (h : Loop c ts p1 p2) :
    Phrase c (us ++ ts) p p2 (fun _ => True) := by
  obtain ⟨vs, rest, b, rfl, h, hs, hd, _⟩ := h _ _ _ hs hd
  exact ⟨us ++ vs, rest, b, by simp, h, by simpa using hs, hd, trivial⟩

end

end Buzz.Accept
