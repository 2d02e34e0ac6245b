import Verif.Parser

/-
The debug information of compiled code: every position is that of a token.
-/
namespace Buzz.Parser

open Buzz.Msg Buzz.Lex Buzz.Debug

/-- Every position in the state, and every one that a token to come can give, satisfies `H`. -/
structure Seen (H : Pos → Prop) (p : P) : Prop where
  tok : H (mark p.tok)
  toks : ∀ t ∈ p.toks, H (mark t)
  code : ∀ e ∈ p.code, H e.2
  chunks : ∀ c ∈ p.chunks, ∀ e ∈ c.code, H e.2

/-- A parsing function keeps this, and its result satisfies `Q`. -/
def Keeps {α : Type} (H : Pos → Prop) (x : M α) (Q : α → Prop) : Prop := ∀ p a p', Seen H p → x p = .ok (some (a, p')) → Seen H p' ∧ Q a

variable {H : Pos → Prop} {α β : Type}

theorem Keeps.bind {x : M α} {f : α → M β} {Q : α → Prop} {R : β → Prop} (hx : Keeps H x Q) (hf : ∀ a, Q a → Keeps H (f a) R) : Keeps H (x >>= f) R := by
  intro p b p' hp h
  have h : (match x p with
    | .ok (some (a, p')) => f a p'
    | .ok none => .ok none
    | .ub => .ub
    | .abort => .abort
    | .hang => .hang) = Res.ok (some (b, p')) := h
  cases hx' : x p with
  | ok r =>
    rw [hx'] at h
    cases r with
    | none => cases h
    | some r =>
      obtain ⟨h1, h2⟩ := hx p r.1 r.2 hp hx'
      exact hf r.1 h2 r.2 b p' h1 h
  | ub => rw [hx'] at h; cases h
  | abort => rw [hx'] at h; cases h
  | hang => rw [hx'] at h; cases h

theorem Keeps.any {x : M α} {Q : α → Prop} (h : Keeps H x Q) : Keeps H x (fun _ => True) := fun p a p' hp e => ⟨(h p a p' hp e).1, trivial⟩

theorem keeps_pure {a : α} {Q : α → Prop} (h : Q a) : Keeps H (pure a : M α) Q := by
  intro p b p' hp e
  cases e
  exact ⟨hp, h⟩

theorem keeps_done : Keeps H done (fun _ => True) := keeps_pure trivial

theorem keeps_fail {Q : α → Prop} : Keeps H (fail : M α) Q := by
  intro p a p' hp e
  cases e

theorem keeps_ub {Q : α → Prop} : Keeps H ((fun _ => .ub) : M α) Q := by
  intro p a p' hp e
  cases e

theorem keeps_failHere {Q : α → Prop} : Keeps H (failHere : M α) Q := by
  intro p a p' hp e
  unfold failHere at e
  split at e <;> cases e

theorem keeps_tok : Keeps H tok (fun t => H (mark t)) := by
  intro p a p' hp e
  cases e
  exact ⟨hp, hp.tok⟩

theorem keeps_ask (f : P → α) : Keeps H (ask f) (fun _ => True) := by
  intro p a p' hp e
  cases e
  exact ⟨hp, trivial⟩

theorem keeps_fetch : Keeps H fetch (fun _ => True) := by
  intro p a p' hp e
  unfold fetch at e
  split at e
  · cases e
  · rename_i t r hd
    cases e
    have hs : ∀ u ∈ t :: r, u ∈ p.toks := by
      rw [← hd]
      exact fun u hu => (List.dropWhile_suffix _).subset hu
    exact ⟨⟨hp.toks t (hs t (List.mem_cons_self ..)), fun u hu => hp.toks u (hs u (List.mem_cons_of_mem _ hu)), hp.code, hp.chunks⟩, trivial⟩

theorem keeps_expect (t : TT) : Keeps H (expect t) (fun _ => True) := by
  unfold expect
  refine keeps_tok.bind fun k _ => ?_
  split
  · exact keeps_pure trivial
  · exact keeps_fail

theorem keeps_emit (l : Ln) : Keeps H (emit l) (fun _ => True) := by
  intro p a p' hp e
  cases e
  refine ⟨⟨hp.tok, hp.toks, fun e he => ?_, hp.chunks⟩, trivial⟩
  rcases List.mem_append.mp he with he | he
  · exact hp.code e he
  · rw [List.mem_singleton] at he
    rw [he]
    exact hp.tok

/-- Good positions in a piece of code. -/
def Good (H : Pos → Prop) (l : List (Ln × Pos)) : Prop := ∀ e ∈ l, H e.2

theorem keeps_bufPush : Keeps H bufPush (Good H) := by
  intro p a p' hp e
  cases e
  exact ⟨⟨hp.tok, hp.toks, fun e he => (by cases he), hp.chunks⟩, hp.code⟩

theorem keeps_bufPop {s : List (Ln × Pos)} (h : Good H s) : Keeps H (bufPop s) (fun _ => True) := by
  intro p a p' hp e
  cases e
  refine ⟨⟨hp.tok, hp.toks, fun e he => ?_, hp.chunks⟩, trivial⟩
  rcases List.mem_append.mp he with he | he
  · exact h e he
  · exact hp.code e he

theorem keeps_bufAppend {s : List (Ln × Pos)} (h : Good H s) (l : Ln) : Keeps H (bufAppend s l) (Good H) := by
  intro p a p' hp e
  cases e
  refine ⟨hp, fun e he => ?_⟩
  rcases List.mem_append.mp he with he | he
  · exact h e he
  · rw [List.mem_singleton] at he
    rw [he]
    exact hp.tok

/-- Changes that concern neither tokens nor code. -/
theorem keeps_upd {f : P → P} (h : ∀ p, (f p).tok = p.tok ∧ (f p).toks = p.toks ∧ (f p).code = p.code ∧ (f p).chunks = p.chunks) : Keeps H (upd f) (fun _ => True) := by
  intro p a p' hp e
  cases e
  obtain ⟨h1, h2, h3, h4⟩ := h p
  exact ⟨⟨h1 ▸ hp.tok, h2 ▸ hp.toks, h3 ▸ hp.code, h4 ▸ hp.chunks⟩, trivial⟩

theorem keeps_addStr (s : Bytes) : Keeps H (addStr s) (fun _ => True) := by
  intro p a p' hp e
  cases e
  exact ⟨⟨hp.tok, hp.toks, hp.code, hp.chunks⟩, trivial⟩

theorem keeps_newLabels (n : Nat) : Keeps H (newLabels n) (fun _ => True) := by
  intro p a p' hp e
  cases e
  exact ⟨⟨hp.tok, hp.toks, hp.code, hp.chunks⟩, trivial⟩

theorem keeps_symAdd (x : Bytes) (g : Bool) : Keeps H (symAdd x g) (fun _ => True) := by
  refine keeps_upd fun p => ?_
  cases g <;> exact ⟨rfl, rfl, rfl, rfl⟩

theorem keeps_symAuto (x : Bytes) : Keeps H (symAuto x) (fun _ => True) := (keeps_ask _).bind fun _ _ => keeps_symAdd _ _

theorem keeps_symtPush : Keeps H symtPush (fun _ => True) := keeps_upd fun _ => ⟨rfl, rfl, rfl, rfl⟩
theorem keeps_symtClone : Keeps H symtClone (fun _ => True) := keeps_upd fun _ => ⟨rfl, rfl, rfl, rfl⟩
theorem keeps_symtPop : Keeps H symtPop (fun _ => True) := keeps_upd fun _ => ⟨rfl, rfl, rfl, rfl⟩

theorem keeps_chunkPush (s : Option (Bytes × Nat)) : Keeps H (chunkPush s) (fun r => Good H r.2) := by
  intro p a p' hp e
  cases e
  refine ⟨⟨hp.tok, hp.toks, fun e he => (by cases he), fun c hc => ?_⟩, hp.code⟩
  rcases List.mem_append.mp hc with hc | hc
  · exact hp.chunks c hc
  · rw [List.mem_singleton] at hc
    rw [hc]
    exact fun e he => by cases he

theorem keeps_chunkPop {r : Nat × List (Ln × Pos)} (h : Good H r.2) : Keeps H (chunkPop r) (fun _ => True) := by
  intro p a p' hp e
  cases e
  refine ⟨⟨hp.tok, hp.toks, h, fun c hc => ?_⟩, trivial⟩
  obtain ⟨i, hi, hc⟩ := List.mem_iff_getElem.mp hc
  rw [← hc, List.getElem_modify]
  split
  · exact hp.code
  · exact hp.chunks _ (List.getElem_mem _)

theorem keeps_ite {c : Prop} [Decidable c] {x y : M α} {Q : α → Prop} (hx : Keeps H x Q) (hy : Keeps H y Q) : Keeps H (if c then x else y) Q := by
  split
  · exact hx
  · exact hy

theorem keeps_self : Keeps H addSelf (fun _ => True) := by
  unfold addSelf
  refine (keeps_ask _).bind fun s _ => ?_
  split
  · exact keeps_pure trivial
  · exact keeps_symAdd _ _

theorem keeps_param : Keeps H param (fun _ => True) := by
  unfold param
  refine keeps_tok.bind fun t _ => (keeps_ask _).bind fun s _ => ?_
  split
  · exact keeps_pure trivial
  · exact keeps_symAdd _ _

theorem keeps_entryKey : Keeps H entryKey (fun _ => True) := by
  unfold entryKey
  exact keeps_tok.bind fun t _ => keeps_ite ((keeps_addStr _).bind fun i _ => keeps_emit _) (keeps_ite (keeps_emit _) keeps_failHere)

theorem keeps_closeBlock (n : Nat) : Keeps H (closeBlock n) (fun _ => True) := by
  unfold closeBlock
  refine (keeps_ask _).bind fun k _ => ?_
  split
  · exact (keeps_emit _).bind fun _ _ => keeps_upd fun _ => ⟨rfl, rfl, rfl, rfl⟩
  · exact keeps_upd fun _ => ⟨rfl, rfl, rfl, rfl⟩

theorem keeps_load (i : Int) (g c : Bool) : Keeps H (load i g c) (fun _ => True) := by
  unfold load
  refine keeps_ite ?_ (keeps_ite ?_ (keeps_ite (keeps_emit _) (keeps_ite (keeps_emit _) (keeps_pure trivial))))
  · split
    · exact (keeps_emit _).bind fun _ _ => (keeps_emit _).bind fun _ _ => keeps_emit _
    · exact (keeps_emit _).bind fun _ _ => keeps_emit _
  · split
    · exact (keeps_emit _).bind fun _ _ => keeps_emit _
    · exact keeps_emit _

/-- The code passed along has good positions. -/
def NT.good (H : Pos → Prop) : NT → Prop
  | .idrefRest _ _ _ saved => Good H saved
  | _ => True

/-- A single parsing function. -/
syntax "keepL" ident : tactic
macro_rules | `(tactic| keepL $hr) => `(tactic| with_reducible first
  | exact keeps_done | exact keeps_tok | exact keeps_fetch | exact keeps_expect _ | exact keeps_emit _
  | exact $hr _ (by first | with_unfolding_all exact trivial | with_unfolding_all assumption)
  | exact keeps_fail | exact keeps_ub | exact keeps_failHere | exact keeps_ask _
  | exact keeps_bufPush | exact keeps_bufPop (by assumption) | exact keeps_bufAppend (by assumption) _ | exact keeps_addStr _
  | exact keeps_newLabels _ | exact keeps_symAdd _ _ | exact keeps_symAuto _ | exact keeps_symtPush | exact keeps_symtClone | exact keeps_symtPop
  | exact keeps_chunkPush _ | exact keeps_chunkPop (by assumption) | exact keeps_self | exact keeps_param | exact keeps_entryKey | exact keeps_closeBlock _ | exact keeps_load _ _ _
  | exact keeps_pure trivial
  | exact keeps_pure (by assumption))

/-- One step of a proof that a parsing function keeps the positions. -/
syntax "keep1" ident : tactic
macro_rules | `(tactic| keep1 $hr) => `(tactic| with_reducible first
  | keepL $hr
  | (refine Keeps.bind (by keepL $hr) (fun a ha => ?_))
  | (refine keeps_ite ?_ ?_)
  | (refine Keeps.bind (Q := Good _) (keeps_ite (keeps_bufAppend (by with_unfolding_all assumption) _) (keeps_pure (by with_unfolding_all assumption))) (fun _ _ => ?_))
  | (refine Keeps.bind (Q := fun _ => True) ?_ (fun _ _ => ?_))
  | split)

theorem keeps_body {rec : NT → M Ret} (hr : ∀ nt, nt.good H → Keeps H (rec nt) (fun _ => True)) (nt : NT) (hn : nt.good H) : Keeps H (body rec nt) (fun _ => True) := by
  cases nt with
  | idrefRest lvalue info glob saved =>
    have hs : Good H saved := hn
    dsimp only [body]
    repeat keep1 hr
  | statlist => dsimp only [body]; repeat keep1 hr
  | statRest => dsimp only [body]; repeat keep1 hr
  | stat => dsimp only [body]; repeat keep1 hr
  | block push => dsimp only [body]; repeat keep1 hr
  | blockstat => dsimp only [body]; repeat keep1 hr
  | var => dsimp only [body]; repeat keep1 hr
  | fun_ => dsimp only [body]; repeat keep1 hr
  | if_ => dsimp only [body]; repeat keep1 hr
  | for_ => dsimp only [body]; repeat keep1 hr
  | while_ => dsimp only [body]; repeat keep1 hr
  | condlist => dsimp only [body]; repeat keep1 hr
  | condlistRest n => dsimp only [body]; repeat keep1 hr
  | cond => dsimp only [body]; repeat keep1 hr
  | condRest =>
    dsimp only [body]
    refine keeps_tok.bind fun t _ => keeps_ite ?_ keeps_done
    refine keeps_fetch.bind fun _ _ => (hr .cmp trivial).bind fun _ _ => keeps_ite ?_ (keeps_ite ?_ ?_)
    · exact (keeps_emit _).bind fun _ _ => hr _ trivial
    · exact (keeps_emit _).bind fun _ _ => hr _ trivial
    · exact Keeps.bind (keeps_ub (Q := fun _ => True)) fun _ _ => hr _ trivial
  | cmp => dsimp only [body]; repeat keep1 hr
  | expr => dsimp only [body]; repeat keep1 hr
  | entry => dsimp only [body]; repeat keep1 hr
  | entries => dsimp only [body]; repeat keep1 hr
  | sumRest => dsimp only [body]; repeat keep1 hr
  | prod => dsimp only [body]; repeat keep1 hr
  | prodRest => dsimp only [body]; repeat keep1 hr
  | modulo => dsimp only [body]; repeat keep1 hr
  | modRest => dsimp only [body]; repeat keep1 hr
  | power => dsimp only [body]; repeat keep1 hr
  | shift => dsimp only [body]; repeat keep1 hr
  | shiftRest => dsimp only [body]; repeat keep1 hr
  | andor => dsimp only [body]; repeat keep1 hr
  | andorRest => dsimp only [body]; repeat keep1 hr
  | bnot => dsimp only [body]; repeat keep1 hr
  | operand => dsimp only [body]; repeat keep1 hr
  | command => dsimp only [body]; repeat keep1 hr
  | idlist => dsimp only [body]; repeat keep1 hr
  | idlistRest => dsimp only [body]; repeat keep1 hr
  | idref lvalue => dsimp only [body]; repeat keep1 hr
  | lambda => dsimp only [body]; repeat keep1 hr

theorem keeps_parse : ∀ (n : Nat) (nt : NT), nt.good H → Keeps H (parse n nt) (fun _ => True)
  | 0, _, _ => fun p a p' _ e => by cases e
  | n + 1, nt, h => keeps_body (keeps_parse n) nt h

/-- **Every position in compiled code is that of a token.** -/
theorem script_seen {n : Nat} {pre : List Bytes} {toks : List Tok} {fin : Bool} {p : P} (h : script n pre toks fin = .ok (some p)) (ht : ∀ t ∈ toks, H (mark t)) :
    ∀ c ∈ p.chunks, ∀ e ∈ c.code, H e.2 := by
  unfold script at h
  split at h
  · cases h
  · rename_i t r hd
    have hs : ∀ u ∈ t :: r, u ∈ toks := by
      rw [← hd]
      exact fun u hu => (List.dropWhile_suffix _).subset hu
    have h0 : Seen H ⟨t, r, fin, 0, [], [], [], preload pre⟩ :=
      ⟨ht t (hs t (List.mem_cons_self ..)), fun u hu => ht u (hs u (List.mem_cons_of_mem _ hu)), fun e he => (by cases he), fun c hc => by cases hc⟩
    dsimp only at h
    split at h
    · cases h
      exact fun c hc => by cases hc
    · have k : Keeps H (do
          symtPush
          let oldc ← chunkPush none
          let _ ← parse n .statlist
          emit .exit
          emit (.op 1)
          chunkPop oldc : M Unit) (fun _ => True) :=
        keeps_symtPush.bind fun _ _ => (keeps_chunkPush _).bind fun _ ho => (keeps_parse n .statlist trivial).bind fun _ _ =>
          (keeps_emit _).bind fun _ _ => (keeps_emit _).bind fun _ _ => keeps_chunkPop ho
      generalize hx : (do
          symtPush
          let oldc ← chunkPush none
          let _ ← parse n .statlist
          emit .exit
          emit (.op 1)
          chunkPop oldc : M Unit) ⟨t, r, fin, 0, [], [], [], preload pre⟩ = x at h
      cases x with
      | ok x =>
        cases x with
        | none => cases h
        | some x =>
          have e : some x.2 = some p := by
            have h : Res.ok (Option.map Prod.snd (some x)) = Res.ok (some p) := h
            cases h
            rfl
          cases e
          exact (k _ x.1 x.2 h0 hx).1.chunks
      | ub => cases h
      | abort => cases h
      | hang => cases h

end Buzz.Parser
