import Verif.ParseStat

/-
Whole scripts: the compiler ends on every list of tokens, and what it accepts is what the grammar and the scope rules allow.
-/
namespace Buzz.Accept

open Buzz.Msg Buzz.Lex Buzz.Parser Buzz.Comp Buzz.Lang Buzz.Debug
open Buzz.VM (Bin Un)

/-! ### More fuel does not change the result -/

/-- `y` does what `x` does, unless `x` runs out of fuel. -/
def Le {α : Type} (x y : M α) : Prop := ∀ p, x p ≠ .hang → y p = x p

theorem le_rfl' {α : Type} {x : M α} : Le x x := fun _ _ => rfl

theorem le_hang {α : Type} {y : M α} : Le (fun _ => .hang) y := fun _ h => absurd rfl h

theorem le_bind {α β : Type} {x y : M α} {f g : α → M β} (h : Le x y) (k : ∀ a, Le (f a) (g a)) : Le (x >>= f) (y >>= g) := by
  intro p hp
  have e : ∀ (x : M α) (f : α → M β), (x >>= f) p = (match x p with
    | .ok (some (a, p')) => f a p'
    | .ok none => .ok none
    | .ub => .ub
    | .abort => .abort
    | .hang => .hang) := fun _ _ => rfl
  rw [e] at hp ⊢
  rw [e]
  cases hx : x p with
  | hang => rw [hx] at hp; exact absurd rfl hp
  | ub => rw [h p (by rw [hx]; simp), hx]
  | abort => rw [h p (by rw [hx]; simp), hx]
  | ok r =>
    rw [h p (by rw [hx]; simp), hx]
    cases r with
    | none => rfl
    | some r =>
      rw [hx] at hp
      exact k _ _ hp

theorem le_ite {α : Type} {c : Prop} [Decidable c] {x y x' y' : M α} (h1 : Le x x') (h2 : Le y y') : Le (if c then x else y) (if c then x' else y') := by
  by_cases h : c
  · rw [if_pos h, if_pos h]; exact h1
  · rw [if_neg h, if_neg h]; exact h2

theorem body_le {R R' : NT → M Ret} (h : ∀ nt, Le (R nt) (R' nt)) (nt : NT) : Le (body R nt) (body R' nt) := by
  cases nt <;> simp only [body] <;>
    repeat (first | exact h _ | exact le_rfl' | (refine le_bind ?_ (fun _ => ?_)) | refine le_ite ?_ ?_ | split)

theorem parse_le {n m : Nat} (h : n ≤ m) : ∀ nt, Le (parse n nt) (parse m nt) := by
  induction n generalizing m with
  | zero => exact fun nt => le_hang
  | succ n ih =>
    obtain ⟨m, rfl⟩ : ∃ k, m = k + 1 := ⟨m - 1, by omega⟩
    exact fun nt => body_le (ih (by omega)) nt

theorem script_le {n m : Nat} (h : n ≤ m) {pre : List Bytes} {toks : List Tok} {fin : Bool} (hn : script n pre toks fin ≠ .hang) :
    script m pre toks fin = script n pre toks fin := by
  unfold script at hn ⊢
  revert hn
  cases toks.dropWhile (fun t => decide (t.type = .statend)) with
  | nil => exact fun _ => rfl
  | cons t r =>
    simp only
    by_cases e : t.type = .eof
    · intro _
      rw [if_pos e, if_pos e]
    · intro hn
      rw [if_neg e] at hn ⊢
      rw [if_neg e]
      have k : Le (do
        symtPush
        let oldc ← chunkPush none
        let _ ← parse n .statlist
        emit .exit
        emit (.op 1)
        chunkPop oldc : M Unit) (do
        symtPush
        let oldc ← chunkPush none
        let _ ← parse m .statlist
        emit .exit
        emit (.op 1)
        chunkPop oldc : M Unit) := le_bind le_rfl' fun _ => le_bind le_rfl' fun _ => le_bind (parse_le h _) fun _ => le_rfl'
      rw [k]
      intro e
      rw [e] at hn
      exact hn rfl

/-! ### What the grammar allows is accepted -/

/-- Scripts, with the rest of the tokens after them. -/
theorem script_ends {pre : List Bytes} {toks : List Tok} {fin : Bool} {us rest : List T2} {b : Ast} {o : Out} (hs : Syn .stats us b) (hb : Ends b rest)
    (hne : us ≠ [] ∨ ∃ v r, rest = (.blockclose, v) :: r)
    (ht : (toks.filter (fun t => decide (t.type ≠ .statend))).map (fun t => (t.type, t.value)) = us ++ rest)
    (ho : comp b .val (start pre) = some o) :
    ∃ p : P, p.chunks.map plain = ⟨0, o.code ++ [.exit, .op 1], none⟩ :: o.news ∧ p.symstack = o.cs.symstack ∧ p.strings = o.cs.strings ∧
      ∃ n, ∀ m, n ≤ m → script m pre toks fin = .ok (some p) := by
  have hd := @dropWhile_filter toks
  unfold script
  cases hw : toks.dropWhile (fun t => decide (t.type = .statend)) with
  | nil =>
    rw [hw] at hd
    simp only at hd
    rw [hd] at ht
    rcases hb with ⟨v, r, rfl⟩ | ⟨_, v, r, rfl⟩ <;> simp at ht
  | cons t r =>
    rw [hw] at hd
    simp only at hd
    rw [hd.2] at ht
    have hv : View (⟨t, r, fin, 0, [], [], [], preload pre⟩ : P) (us ++ rest) := ⟨hd.1, ht.symm⟩
    have hv1 : View (inChunk none ⟨t, r, fin, 0, [], [], [[]], preload pre⟩) (us ++ rest) := hv
    have hte : t.type ≠ .eof := by
      rcases hne with h | ⟨v, r', rfl⟩
      · rcases stats_shape hs rfl with ⟨e, _⟩ | hst
        · exact absurd e h
        · exact fun e => hst.ne_close hv (Or.inl e)
      · rcases stats_shape hs rfl with ⟨e, _⟩ | hst
        · subst e
          intro e
          have := View.type hv
          rw [show (P.tok _).type = t.type from rfl, e] at this
          cases this
        · exact fun e => hst.ne_close hv (Or.inl e)
    have hc := claim hs
    have := hc (inChunk none ⟨t, r, fin, 0, [], [], [[]], preload pre⟩) rest o
      (fun _ p => View p rest ∧ Go (inChunk none ⟨t, r, fin, 0, [], [], [[]], preload pre⟩) p o) hv1 hb (List.cons_ne_nil _ _) ho
      fun r p hv g => ⟨hv, g⟩
    obtain ⟨r1, p1, ⟨n, e⟩, hv2, g⟩ : Can (fun R => R .statlist) (inChunk none ⟨t, r, fin, 0, [], [], [[]], preload pre⟩) (fun _ p => View p rest ∧ Go (inChunk none ⟨t, r, fin, 0, [], [], [[]], preload pre⟩) p o) := by
      by_cases htb : t.type = .blockclose
      · obtain ⟨r1, p1, ⟨n, e⟩, q⟩ := this
        refine ⟨r1, p1, ⟨n + 2, fun m hm => ?_⟩, q⟩
        obtain ⟨m, rfl⟩ : ∃ k, m = k + 2 := ⟨m - 2, by omega⟩
        rw [← e (m + 1) (by omega)]
        have h1 : parse (m + 1) .stat (inChunk none ⟨t, r, fin, 0, [], [], [[]], preload pre⟩) = .ok (some (⟨0, 0, false⟩, inChunk none ⟨t, r, fin, 0, [], [], [[]], preload pre⟩)) := by
          show (if t.type = .statend ∨ t.type = .blockclose then done else _ : M Ret) _ = _
          rw [if_pos (Or.inr htb)]
          rfl
        exact bind_ok (f := fun _ => parse (m + 1) .statRest) h1
      · exact statlist_of this hte htb
    have g2 := (g.emitted (l := .exit)).emitted (l := .op 1)
    refine ⟨{ emitted (.op 1) (emitted .exit p1) with code := [], chunks := p1.chunks.modify 0 (fun c => { c with code := (emitted (.op 1) (emitted .exit p1)).code }) }, ?_,
      congrArg CS.symstack g2.cs, congrArg CS.strings g2.cs, n, fun m hm => ?_⟩
    · have hch : p1.chunks.map plain = [] ++ ⟨0, [], none⟩ :: o.news := g.chunks
      have hcode : (emitted (.op 1) (emitted .exit p1)).code.map Prod.fst = o.code ++ [.exit, .op 1] := by
        have := g2.code
        simpa [inChunk] using this
      have := modify_plain (fun c => { c with code := (emitted (.op 1) (emitted .exit p1)).code }) p1.chunks [] o.news _ _ hch (fun _ => rfl)
      rw [hcode] at this
      exact this
    · simp only
      rw [if_neg hte]
      have key := bind_ok (f := fun _ => emit .exit >>= fun _ => emit (.op 1) >>= fun _ => chunkPop (0, [])) (e m hm)
      have key2 : (symtPush >>= fun _ => chunkPush none >>= fun oldc => parse m .statlist >>= fun _ => emit .exit >>= fun _ => emit (.op 1) >>= fun _ => chunkPop oldc)
          (⟨t, r, fin, 0, [], [], [], preload pre⟩ : P) = (emit .exit >>= fun _ => emit (.op 1) >>= fun _ => chunkPop (0, [])) p1 := key
      rw [key2]
      rfl

/-! ### What is accepted the grammar allows -/

/-- The tokens begin with a script `b`, which `rest` ends. -/
structure Begins (pre : List Bytes) (ts us rest : List T2) (b : Ast) (o : Out) : Prop where
  tokens : ts = us ++ rest
  syn : Syn .stats us b
  ends : Ends b rest
  comp : comp b .val (start pre) = some o

/-- What the compiler holds after a script. -/
def Holds (o : Out) (p : P) : Prop :=
  p.chunks.map plain = ⟨0, o.code ++ [.exit, .op 1], none⟩ :: o.news ∧ p.symstack = o.cs.symstack ∧ p.strings = o.cs.strings

/-- **A script**: with enough fuel, compilation ends; it succeeds if and only if there are no tokens at all or the tokens begin with a
script; and it is undefined only if a message names the file of a lexer without files. -/
theorem script_sound {pre : List Bytes} {toks : List Tok} {fin : Bool} {ts : List T2}
    (ht : (toks.filter (fun t => decide (t.type ≠ .statend))).map (fun t => (t.type, t.value)) = ts) (hf : Fine ts) {n : Nat} (hn : 16 * ts.length + 4 < n) :
    match script n pre toks fin with
    | .ok (some p) => (∃ v, ts = [(.eof, v)] ∧ p.chunks = [] ∧ p.symstack = [] ∧ p.strings = preload pre) ∨
        (ts.length ≠ 1 ∧ (∃ us rest b o, Begins pre ts us rest b o) ∧ ∀ us rest b o, Begins pre ts us rest b o → Holds o p)
    | .ok none => ts.length ≠ 1 ∧ ∀ us rest b o, ¬ Begins pre ts us rest b o
    | .ub => fin = true ∧ ts.length ≠ 1 ∧ ∀ us rest b o, ¬ Begins pre ts us rest b o
    | .abort => False
    | .hang => False := by
  have hd := @dropWhile_filter toks
  have full : ts.length ≠ 1 → script n pre toks fin ≠ .hang → ∀ us rest b o, Begins pre ts us rest b o → ∃ p, Holds o p ∧ script n pre toks fin = .ok (some p) := by
    intro hl hh us rest b o h
    have hne : us ≠ [] ∨ ∃ v r, rest = (.blockclose, v) :: r := by
      by_cases e : us = []
      · right
        rcases h.ends with h' | ⟨_, v, r, e'⟩
        · exact h'
        · exfalso
          have ht := h.tokens
          rw [e, e', List.nil_append] at ht
          rw [ht] at hf hl
          cases r with
          | nil => exact hl rfl
          | cons u r => exact hf.1 rfl
      · exact Or.inl e
    obtain ⟨p, h1, h2, h3, m, h4⟩ := script_ends (fin := fin) h.syn h.ends hne (ht.trans h.tokens) h.comp
    refine ⟨p, ⟨h1, h2, h3⟩, ?_⟩
    rw [← h4 (max n m) (le_max_right _ _), script_le (le_max_left n m) hh]
  have core : match script n pre toks fin with
    | .ok (some p) => (∃ v, ts = [(.eof, v)] ∧ p.chunks = [] ∧ p.symstack = [] ∧ p.strings = preload pre) ∨
        (ts.length ≠ 1 ∧ ∃ us rest b o, Begins pre ts us rest b o)
    | .ok none => ts.length ≠ 1
    | .ub => fin = true ∧ ts.length ≠ 1
    | .abort => False
    | .hang => False := by
    unfold script
    cases hw : toks.dropWhile (fun t => decide (t.type = .statend)) with
    | nil =>
      rw [hw] at hd
      simp only at hd
      rw [hd] at ht
      subst ht
      exact hf.elim
    | cons t r =>
      rw [hw] at hd
      simp only at hd
      rw [hd.2] at ht
      simp only
      by_cases e : t.type = .eof
      · rw [if_pos e]
        simp only
        left
        refine ⟨t.value, ?_, by simp, by simp, by simp⟩
        rw [← ht] at hf ⊢
        rw [List.map_cons] at hf ⊢
        cases hr : (r.filter (fun t => decide (t.type ≠ .statend))).map (fun t => (t.type, t.value)) with
        | nil => rw [e]
        | cons u r => rw [hr] at hf; exact absurd e hf.1
      · rw [if_neg e]
        have hl : ts.length ≠ 1 := by
          rw [← ht] at hf ⊢
          rw [List.map_cons] at hf ⊢
          cases hr : (r.filter (fun t => decide (t.type ≠ .statend))).map (fun t => (t.type, t.value)) with
          | nil => rw [hr] at hf; exact absurd hf e
          | cons u r => simp
        have hv : At (inChunk none ⟨t, r, fin, 0, [], [], [[]], preload pre⟩) ts := ⟨⟨hd.1, ht.symm⟩, hf, List.cons_ne_nil _ _⟩
        have w : Wp (symtPush >>= fun _ => chunkPush none >>= fun oldc => parse n .statlist >>= fun _ => emit .exit >>= fun _ => emit (.op 1) >>= fun _ => chunkPop oldc)
            (⟨t, r, fin, 0, [], [], [], preload pre⟩ : P) (fun _ _ => ∃ us rest b o, Begins pre ts us rest b o) := by
          refine wp_step rfl rfl (wp_step rfl rfl ?_)
          refine wp_call (sound n) .statlist (p := inChunk none ⟨t, r, fin, 0, [], [], [[]], preload pre⟩) hv (by simp) hn fun _ p1 q => ?_
          simp only [Post] at q
          obtain ⟨us, rest, b, h1, h2, h3, ⟨o, h4, _⟩, h5⟩ := q
          refine wp_step rfl rfl (wp_step rfl rfl (wp_of rfl rfl ⟨us, rest, b, o, h1, h3, ?_, h4⟩))
          have hv := h2.view.2
          rcases h5 with h5 | ⟨h5, h6⟩
          · exact Or.inl ⟨_, _, by rw [hv, h5]⟩
          · exact Or.inr ⟨h6, _, _, by rw [hv, h5]⟩
        unfold Wp at w
        revert w
        cases (symtPush >>= fun _ => chunkPush none >>= fun oldc => parse n .statlist >>= fun _ => emit .exit >>= fun _ => emit (.op 1) >>= fun _ => chunkPop oldc : M Unit)
            (⟨t, r, fin, 0, [], [], [], preload pre⟩ : P) with
        | ok q =>
          cases q with
          | none => exact fun _ => hl
          | some q => exact fun w => Or.inr ⟨hl, w.2⟩
        | ub => exact fun w => ⟨w, hl⟩
        | abort => exact False.elim
        | hang => exact False.elim
  cases hx : script n pre toks fin with
  | ok q =>
    rw [hx] at core
    cases q with
    | none =>
      refine ⟨core, fun us rest b o h => ?_⟩
      obtain ⟨p, _, e⟩ := full core (by rw [hx]; simp) us rest b o h
      rw [hx] at e
      cases e
    | some p =>
      rcases core with h | ⟨h, us, rest, b, o, k⟩
      · exact Or.inl h
      · refine Or.inr ⟨h, ⟨us, rest, b, o, k⟩, fun us rest b o k => ?_⟩
        obtain ⟨p', h', e⟩ := full h (by rw [hx]; simp) us rest b o k
        rw [hx] at e
        cases e
        exact h'
  | ub =>
    rw [hx] at core
    refine ⟨core.1, core.2, fun us rest b o h => ?_⟩
    obtain ⟨p, _, e⟩ := full core.2 (by rw [hx]; simp) us rest b o h
    rw [hx] at e
    cases e
  | abort => rw [hx] at core; exact core
  | hang => rw [hx] at core; exact core

/-! ### The lexer's tokens -/

theorem tokOk_keyword (v : Bytes) : TokOk (keyword v, v) := by
  unfold keyword
  repeat' split
  all_goals first | trivial | (subst_vars; first | exact ⟨_, .land⟩ | exact ⟨_, .lor⟩)

theorem token_tokOk {f f' : File} {c : UInt8} {r : Bytes} {t : Tok} (h : token f c r = .ok (t, f')) : TokOk (t.type, t.value) := by
  unfold token at h
  simp only at h
  by_cases e : c = 10
  · rw [if_pos e] at h
    cases h
    trivial
  rw [if_neg e] at h
  clear e
  by_cases e : c = 59
  · rw [if_pos e] at h
    cases h
    trivial
  rw [if_neg e] at h
  clear e
  by_cases e : c = 123
  · rw [if_pos e] at h
    cases h
    trivial
  rw [if_neg e] at h
  clear e
  by_cases e : c = 125
  · rw [if_pos e] at h
    cases h
    trivial
  rw [if_neg e] at h
  clear e
  by_cases e : c = 40
  · rw [if_pos e] at h
    cases h
    trivial
  rw [if_neg e] at h
  clear e
  by_cases e : c = 41
  · rw [if_pos e] at h
    cases h
    trivial
  rw [if_neg e] at h
  clear e
  by_cases e : c = 91
  · rw [if_pos e] at h
    cases h
    trivial
  rw [if_neg e] at h
  clear e
  by_cases e : c = 93
  · rw [if_pos e] at h
    cases h
    trivial
  rw [if_neg e] at h
  clear e
  by_cases e : c = 44
  · rw [if_pos e] at h
    cases h
    trivial
  rw [if_neg e] at h
  clear e
  by_cases e : c = 46
  · rw [if_pos e] at h
    cases h
    trivial
  rw [if_neg e] at h
  clear e
  by_cases e : VM.isDigit c = true
  · rw [if_pos e] at h
    cases h
    trivial
  rw [if_neg e] at h
  clear e
  by_cases e : isAlpha c = true
  · rw [if_pos e] at h
    cases h
    exact tokOk_keyword _
  rw [if_neg e] at h
  clear e
  by_cases e : c = 61
  · rw [if_pos e] at h
    split at h
    · cases h
      exact ⟨_, .eq⟩
    · cases h
      trivial
  rw [if_neg e] at h
  clear e
  by_cases e : c = 33
  · rw [if_pos e] at h
    split at h
    · cases h
      exact ⟨_, .neq⟩
    · cases h
      trivial
  rw [if_neg e] at h
  clear e
  by_cases e : c = 60 ∨ c = 62
  · rw [if_pos e] at h
    rcases e with rfl | rfl
    · split at h
      · cases h
        exact ⟨_, .shl⟩
      · split at h
        · cases h
          exact ⟨_, .lte⟩
        · cases h
          exact ⟨_, .lt⟩
    · split at h
      · cases h
        exact ⟨_, .shr⟩
      · split at h
        · cases h
          exact ⟨_, .gte⟩
        · cases h
          exact ⟨_, .gt⟩
  rw [if_neg e] at h
  clear e
  by_cases e : c = 43 ∨ c = 45
  · rw [if_pos e] at h
    rcases e with rfl | rfl <;> cases h
    · exact ⟨_, .add⟩
    · exact ⟨_, .sub⟩
  rw [if_neg e] at h
  clear e
  by_cases e : c = 42 ∨ c = 47
  · rw [if_pos e] at h
    rcases e with rfl | rfl <;> cases h
    · exact ⟨_, .mul⟩
    · exact ⟨_, .div⟩
  rw [if_neg e] at h
  clear e
  by_cases e : c = 37
  · rw [if_pos e] at h
    subst e
    cases h
    exact ⟨_, .mod⟩
  rw [if_neg e] at h
  clear e
  by_cases e : c = 94
  · rw [if_pos e] at h
    subst e
    cases h
    exact ⟨_, .pow⟩
  rw [if_neg e] at h
  clear e
  by_cases e : c = 38 ∨ c = 124
  · rw [if_pos e] at h
    rcases e with rfl | rfl <;> cases h
    · exact ⟨_, .band⟩
    · exact ⟨_, .bor⟩
  rw [if_neg e] at h
  clear e
  by_cases e : isQuote c = true
  · rw [if_pos e] at h
    cases hc : closing c 0 0 r with
    | none => rw [hc] at h; cases h; trivial
    | some n =>
      rw [hc] at h
      simp only at h
      cases hn : newString n (r ++ [0]) with
      | ok v => rw [hn] at h; cases h; trivial
      | ub => rw [hn] at h; cases h
      | abort => rw [hn] at h; cases h
      | hang => rw [hn] at h; cases h
  rw [if_neg e] at h
  clear e
  cases h
  trivial

theorem keyword_ne_eof (v : Bytes) : keyword v ≠ .eof := by
  unfold keyword
  repeat' split
  all_goals simp

theorem token_eof {f f' : File} {c : UInt8} {r : Bytes} {t : Tok} (h : token f c r = .ok (t, f')) : t.type = .eof → t = eofTok := by
  unfold token at h
  simp only at h
  by_cases e : c = 10
  · rw [if_pos e] at h
    cases h
    intro h; cases h
  rw [if_neg e] at h
  clear e
  by_cases e : c = 59
  · rw [if_pos e] at h
    cases h
    intro h; cases h
  rw [if_neg e] at h
  clear e
  by_cases e : c = 123
  · rw [if_pos e] at h
    cases h
    intro h; cases h
  rw [if_neg e] at h
  clear e
  by_cases e : c = 125
  · rw [if_pos e] at h
    cases h
    intro h; cases h
  rw [if_neg e] at h
  clear e
  by_cases e : c = 40
  · rw [if_pos e] at h
    cases h
    intro h; cases h
  rw [if_neg e] at h
  clear e
  by_cases e : c = 41
  · rw [if_pos e] at h
    cases h
    intro h; cases h
  rw [if_neg e] at h
  clear e
  by_cases e : c = 91
  · rw [if_pos e] at h
    cases h
    intro h; cases h
  rw [if_neg e] at h
  clear e
  by_cases e : c = 93
  · rw [if_pos e] at h
    cases h
    intro h; cases h
  rw [if_neg e] at h
  clear e
  by_cases e : c = 44
  · rw [if_pos e] at h
    cases h
    intro h; cases h
  rw [if_neg e] at h
  clear e
  by_cases e : c = 46
  · rw [if_pos e] at h
    cases h
    intro h; cases h
  rw [if_neg e] at h
  clear e
  by_cases e : VM.isDigit c = true
  · rw [if_pos e] at h
    cases h
    intro h; cases h
  rw [if_neg e] at h
  clear e
  by_cases e : isAlpha c = true
  · rw [if_pos e] at h
    cases h
    exact fun h => absurd h (keyword_ne_eof _)
  rw [if_neg e] at h
  clear e
  by_cases e : c = 61
  · rw [if_pos e] at h
    split at h
    · cases h
      intro h; cases h
    · cases h
      intro h; cases h
  rw [if_neg e] at h
  clear e
  by_cases e : c = 33
  · rw [if_pos e] at h
    split at h
    · cases h
      intro h; cases h
    · cases h
      intro h; cases h
  rw [if_neg e] at h
  clear e
  by_cases e : c = 60 ∨ c = 62
  · rw [if_pos e] at h
    rcases e with rfl | rfl
    · split at h
      · cases h
        intro h; cases h
      · split at h
        · cases h
          intro h; cases h
        · cases h
          intro h; cases h
    · split at h
      · cases h
        intro h; cases h
      · split at h
        · cases h
          intro h; cases h
        · cases h
          intro h; cases h
  rw [if_neg e] at h
  clear e
  by_cases e : c = 43 ∨ c = 45
  · rw [if_pos e] at h
    rcases e with rfl | rfl <;> cases h
    · intro h; cases h
    · intro h; cases h
  rw [if_neg e] at h
  clear e
  by_cases e : c = 42 ∨ c = 47
  · rw [if_pos e] at h
    rcases e with rfl | rfl <;> cases h
    · intro h; cases h
    · intro h; cases h
  rw [if_neg e] at h
  clear e
  by_cases e : c = 37
  · rw [if_pos e] at h
    subst e
    cases h
    intro h; cases h
  rw [if_neg e] at h
  clear e
  by_cases e : c = 94
  · rw [if_pos e] at h
    subst e
    cases h
    intro h; cases h
  rw [if_neg e] at h
  clear e
  by_cases e : c = 38 ∨ c = 124
  · rw [if_pos e] at h
    rcases e with rfl | rfl <;> cases h
    · intro h; cases h
    · intro h; cases h
  rw [if_neg e] at h
  clear e
  by_cases e : isQuote c = true
  · rw [if_pos e] at h
    cases hc : closing c 0 0 r with
    | none => rw [hc] at h; cases h; exact fun _ => rfl
    | some n =>
      rw [hc] at h
      simp only at h
      cases hn : newString n (r ++ [0]) with
      | ok v => rw [hn] at h; cases h; intro h; cases h
      | ub => rw [hn] at h; cases h
      | abort => rw [hn] at h; cases h
      | hang => rw [hn] at h; cases h
  rw [if_neg e] at h
  clear e
  cases h
  exact fun _ => rfl

theorem nexttok_tokOk {fs : FS} {t : Tok} {lex' : List File} : ∀ {n : Nat} {lex : List File}, nexttok fs n lex = .ok (t, lex') →
    TokOk (t.type, t.value) ∧ (t.type = .eof → t = eofTok) := by
  intro n
  induction n with
  | zero => intro lex h; cases h
  | succ n ih =>
    intro lex h
    rw [nexttok] at h
    cases hr : lexRound fs lex with
    | again l => rw [hr] at h; exact ih h
    | fin r =>
      rw [hr] at h
      simp only at h
      subst h
      unfold lexRound at hr
      have cl : ∀ {below : List File}, closeFile below = .fin (.ok (t, lex')) → TokOk (t.type, t.value) ∧ (t.type = .eof → t = eofTok) := by
        intro below h
        unfold closeFile at h
        split at h
        · cases h; exact ⟨trivial, fun _ => rfl⟩
        · cases h
      split at hr
      · cases hr
      · simp only at hr
        split at hr
        · exact cl hr
        · split at hr
          · split at hr
            · exact cl hr
            · cases hr
          · split at hr
            · split at hr
              · cases hr; exact ⟨trivial, fun _ => rfl⟩
              · cases hr
              · cases hr
            · rename_i f below _ c r _ _ _
              simp only [Round.fin.injEq] at hr
              cases hk : token (f.adv (f.rest.takeWhile isBlank).length) c r with
              | ok q => rw [hk] at hr; cases hr; exact ⟨token_tokOk hk, token_eof hk⟩
              | ub => rw [hk] at hr; cases hr
              | abort => rw [hk] at hr; cases hr
              | hang => rw [hk] at hr; cases hr

/-- The tokens of a text are as the parser needs them. -/
theorem drain_fine {fs : FS} : ∀ {n : Nat} {lex : List File} {toks : List Tok} {fin : Bool}, drain fs n lex = .ok (toks, fin) →
    Fine ((toks.filter (fun t => decide (t.type ≠ .statend))).map (fun t => (t.type, t.value))) := by
  intro n
  induction n with
  | zero => intro lex toks fin h; cases h
  | succ n ih =>
    intro lex toks fin h
    rw [drain] at h
    cases hx : nexttok fs n lex with
    | ok r =>
      rw [hx, Res.ok_bind] at h
      simp only at h
      split at h
      · rename_i he
        cases h
        rw [List.filter_cons_of_pos (by simp [he])]
        exact he
      · rename_i he
        cases hr : drain fs n r.2 with
        | ok rs =>
          rw [hr, Res.ok_bind] at h
          cases h
          have := ih hr
          by_cases hs : r.1.type = .statend
          · rw [List.filter_cons_of_neg (by simp [hs])]
            exact this
          · rw [List.filter_cons_of_pos (by simp [hs]), List.map_cons]
            revert this
            cases (rs.1.filter (fun t => decide (t.type ≠ .statend))).map (fun t => (t.type, t.value)) with
            | nil => exact False.elim
            | cons u r => exact fun h => ⟨he, (nexttok_tokOk hx).1, h⟩
        | ub => rw [hr] at h; cases h
        | abort => rw [hr] at h; cases h
        | hang => rw [hr] at h; cases h
    | ub => rw [hx] at h; cases h
    | abort => rw [hx] at h; cases h
    | hang => rw [hx] at h; cases h

/-! ### Draining the lexer -/

theorem drain_tokens {fs : FS} : ∀ (n : Nat) (lex : List File), tokens fs n lex = (drain fs n lex).bind (fun r => .ok r.1) := by
  intro n
  induction n with
  | zero => intro lex; rfl
  | succ n ih =>
    intro lex
    rw [tokens, drain]
    cases nexttok fs n lex with
    | ok r =>
      simp only [Res.ok_bind]
      split
      · rfl
      · rw [ih]
        cases drain fs n r.2 <;> rfl
    | ub => rfl
    | abort => rfl
    | hang => rfl

/-- The last token is the end of the file, and no other. -/
theorem drain_last {fs : FS} : ∀ {n : Nat} {lex : List File} {toks : List Tok} {fin : Bool}, drain fs n lex = .ok (toks, fin) →
    ∃ ts, toks = ts ++ [eofTok] ∧ ∀ t ∈ ts, t.type ≠ .eof := by
  intro n
  induction n with
  | zero => intro lex toks fin h; cases h
  | succ n ih =>
    intro lex toks fin h
    rw [drain] at h
    cases hx : nexttok fs n lex with
    | ok r =>
      rw [hx, Res.ok_bind] at h
      simp only at h
      split at h
      · rename_i he
        cases h
        exact ⟨[], by rw [(nexttok_tokOk hx).2 he]; rfl, by simp⟩
      · rename_i he
        cases hr : drain fs n r.2 with
        | ok rs =>
          rw [hr, Res.ok_bind] at h
          cases h
          obtain ⟨ts, h1, h2⟩ := ih hr
          refine ⟨r.1 :: ts, by rw [h1]; rfl, fun t ht => ?_⟩
          rcases List.mem_cons.mp ht with rfl | ht
          · exact he
          · exact h2 t ht
        | ub => rw [hr] at h; cases h
        | abort => rw [hr] at h; cases h
        | hang => rw [hr] at h; cases h
    | ub => rw [hx] at h; cases h
    | abort => rw [hx] at h; cases h
    | hang => rw [hx] at h; cases h

theorem newString_no_abort : ∀ (n : Nat) (s : Bytes), newString n s ≠ .abort
  | 0, _ => by simp [newString]
  | n + 1, [] => by simp [newString]
  | n + 1, c :: s => by
    unfold newString
    split
    · have := newString_no_abort n s
      cases h : newString n s with
      | abort => exact absurd h this
      | _ => simp
    · cases s with
      | nil => simp
      | cons d s =>
        simp only
        have := newString_no_abort n s
        cases h : newString n s with
        | abort => exact absurd h this
        | _ => simp

theorem token_no_abort (f : File) (c : UInt8) (r : Bytes) : token f c r ≠ .abort := by
  intro h
  unfold token at h
  simp only at h
  by_cases e : c = 10
  · rw [if_pos e] at h
    cases h
  rw [if_neg e] at h
  clear e
  by_cases e : c = 59
  · rw [if_pos e] at h
    cases h
  rw [if_neg e] at h
  clear e
  by_cases e : c = 123
  · rw [if_pos e] at h
    cases h
  rw [if_neg e] at h
  clear e
  by_cases e : c = 125
  · rw [if_pos e] at h
    cases h
  rw [if_neg e] at h
  clear e
  by_cases e : c = 40
  · rw [if_pos e] at h
    cases h
  rw [if_neg e] at h
  clear e
  by_cases e : c = 41
  · rw [if_pos e] at h
    cases h
  rw [if_neg e] at h
  clear e
  by_cases e : c = 91
  · rw [if_pos e] at h
    cases h
  rw [if_neg e] at h
  clear e
  by_cases e : c = 93
  · rw [if_pos e] at h
    cases h
  rw [if_neg e] at h
  clear e
  by_cases e : c = 44
  · rw [if_pos e] at h
    cases h
  rw [if_neg e] at h
  clear e
  by_cases e : c = 46
  · rw [if_pos e] at h
    cases h
  rw [if_neg e] at h
  clear e
  by_cases e : VM.isDigit c = true
  · rw [if_pos e] at h
    cases h
  rw [if_neg e] at h
  clear e
  by_cases e : isAlpha c = true
  · rw [if_pos e] at h
    cases h
  rw [if_neg e] at h
  clear e
  by_cases e : c = 61
  · rw [if_pos e] at h
    split at h <;> cases h
  rw [if_neg e] at h
  clear e
  by_cases e : c = 33
  · rw [if_pos e] at h
    split at h <;> cases h
  rw [if_neg e] at h
  clear e
  by_cases e : c = 60 ∨ c = 62
  · rw [if_pos e] at h
    split at h
    · cases h
    · split at h <;> cases h
  rw [if_neg e] at h
  clear e
  by_cases e : c = 43 ∨ c = 45
  · rw [if_pos e] at h
    cases h
  rw [if_neg e] at h
  clear e
  by_cases e : c = 42 ∨ c = 47
  · rw [if_pos e] at h
    cases h
  rw [if_neg e] at h
  clear e
  by_cases e : c = 37
  · rw [if_pos e] at h
    cases h
  rw [if_neg e] at h
  clear e
  by_cases e : c = 94
  · rw [if_pos e] at h
    cases h
  rw [if_neg e] at h
  clear e
  by_cases e : c = 38 ∨ c = 124
  · rw [if_pos e] at h
    cases h
  rw [if_neg e] at h
  clear e
  by_cases e : isQuote c = true
  · rw [if_pos e] at h
    cases hc : closing c 0 0 r with
    | none => rw [hc] at h; cases h
    | some n =>
      rw [hc] at h
      simp only at h
      cases hn : newString n (r ++ [0]) with
      | ok v => rw [hn] at h; cases h
      | ub => rw [hn] at h; cases h
      | abort => exact newString_no_abort _ _ hn
      | hang => rw [hn] at h; cases h
  rw [if_neg e] at h
  clear e
  cases h

theorem nexttok_no_abort {fs : FS} : ∀ (n : Nat) (lex : List File), nexttok fs n lex ≠ .abort := by
  intro n
  induction n with
  | zero => intro lex; simp [nexttok]
  | succ n ih =>
    intro lex h
    rw [nexttok] at h
    cases hr : lexRound fs lex with
    | again l => rw [hr] at h; exact ih _ h
    | fin r =>
      rw [hr] at h
      simp only at h
      subst h
      unfold lexRound at hr
      have cl : ∀ {below : List File}, closeFile below ≠ .fin .abort := by
        intro below h
        unfold closeFile at h
        split at h <;> cases h
      split at hr
      · cases hr
      · simp only at hr
        split at hr
        · exact cl hr
        · split at hr
          · split at hr
            · exact cl hr
            · cases hr
          · split at hr
            · split at hr <;> cases hr
            · rename_i f below _ c r _ _ _
              simp only [Round.fin.injEq] at hr
              cases hk : token (f.adv (f.rest.takeWhile isBlank).length) c r with
              | ok q => rw [hk] at hr; cases hr
              | ub => rw [hk] at hr; cases hr
              | abort => exact token_no_abort _ _ _ hk
              | hang => rw [hk] at hr; cases hr

theorem drain_no_abort {fs : FS} : ∀ (n : Nat) (lex : List File), drain fs n lex ≠ .abort := by
  intro n
  induction n with
  | zero => intro lex; simp [drain]
  | succ n ih =>
    intro lex h
    rw [drain] at h
    cases hx : nexttok fs n lex with
    | ok r =>
      rw [hx, Res.ok_bind] at h
      simp only at h
      split at h
      · cases h
      · cases hr : drain fs n r.2 with
        | ok rs => rw [hr] at h; cases h
        | ub => rw [hr] at h; cases h
        | abort => exact ih _ hr
        | hang => rw [hr] at h; cases h
    | ub => rw [hx] at h; cases h
    | abort => exact nexttok_no_abort _ _ hx
    | hang => rw [hx] at h; cases h

end Buzz.Accept
