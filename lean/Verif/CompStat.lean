import Verif.CompExpr

/-
The parsing functions of functions and statements, and whole scripts.
-/
namespace Buzz.Comp

open Buzz.Msg Buzz.Lex Buzz.Parser Buzz.Lang Buzz.Debug
open Buzz.VM (Bin Un)

/-! ### Parameters -/

/-- Only the deciding part changed. -/
structure Onto (p p' : P) (c : CS) : Prop where
  tok : p'.tok = p.tok
  toks : p'.toks = p.toks
  code : p'.code = p.code
  chunks : p'.chunks = p.chunks
  fin : p'.fin = p.fin
  cs : cs p' = c

theorem Onto.view {p p' : P} {c : CS} {ts : List T2} (h : Onto p p' c) (hv : View p ts) : View p' ts := by
  unfold View
  rw [h.tok, h.toks]
  exact hv

theorem Onto.go {p p' : P} {c : CS} (h : Onto p p' c) : Go p p' ⟨[], [], c⟩ := ⟨by rw [h.code, List.append_nil], by rw [h.chunks, List.append_nil], h.cs, h.fin⟩

theorem Go.onto {p p1 p2 : P} {o : Out} {c : CS} (h : Go p p1 o) (g : Onto p1 p2 c) : Go p p2 ⟨o.code, o.news, c⟩ := by
  have := h.trans g.go
  simpa using this

theorem Onto.then {p p1 p2 : P} {o : Out} {c : CS} (g : Onto p p1 c) (h : Go p1 p2 o) : Go p p2 o := by
  have := g.go.trans h
  simpa using this

theorem local_match (x : Bytes) (p : P) : ((match lookup x p.symstack with
    | some ⟨_, false, _⟩ => pure ()
    | _ => symAdd x false) : M Unit) = if isLocal x (cs p) then pure () else symAdd x false := by
  unfold isLocal
  show _ = if (match lookup x p.symstack with | some s => !s.global | none => false) = true then _ else _
  cases h : lookup x p.symstack with
  | none => rfl
  | some s =>
    obtain ⟨a, b, c⟩ := s
    cases b <;> rfl

theorem addParam_step (x : Bytes) (p : P) : ∃ p', (if isLocal x (cs p) then pure () else symAdd x false : M Unit) p = .ok (some ((), p')) ∧ Onto p p' (addParam (cs p) x) := by
  unfold addParam
  cases h : isLocal x (cs p) with
  | true => exact ⟨p, rfl, rfl, rfl, rfl, rfl, rfl, rfl⟩
  | false => exact ⟨_, rfl, rfl, rfl, rfl, rfl, rfl, rfl⟩

theorem can_param {β : Type} {f : Unit → (NT → M Ret) → M β} {p : P} {Q : β → P → Prop}
    (k : ∀ p', Onto p p' (addParam (cs p) p.tok.value) → Can (f ()) p' Q) : Can (fun R => param >>= fun a => f a R) p Q := by
  obtain ⟨p', e, h⟩ := addParam_step p.tok.value p
  refine can_step (x := param) (a := ()) (p' := p') ?_ (k p' h)
  rw [← e, ← local_match]
  rfl

theorem can_addSelf {β : Type} {f : Unit → (NT → M Ret) → M β} {p : P} {Q : β → P → Prop}
    (k : ∀ p', Onto p p' (addParam (cs p) selfName) → Can (f ()) p' Q) : Can (fun R => addSelf >>= fun a => f a R) p Q := by
  obtain ⟨p', e, h⟩ := addParam_step selfName p
  refine can_step (x := addSelf) (a := ()) (p' := p') ?_ (k p' h)
  rw [← e, ← local_match]
  rfl

theorem idlistRest {ts : List T2} {xs : List Bytes} (h : Ids ts xs) : xs ≠ [] → ∀ (p : P) (v w : Bytes) (rest : List T2) (Q : Ret → P → Prop),
    View p ((.listsep, v) :: (ts ++ (.parclose, w) :: rest)) →
    (∀ r p', View p' ((.parclose, w) :: rest) → Go p p' ⟨[], [], xs.foldl addParam (cs p)⟩ → Q r p') → Can (fun R => R .idlistRest) p Q := by
  induction h with
  | nil => exact fun h => absurd rfl h
  | @one x =>
    intro _ p v w rest Q hv k
    refine can_rec ?_
    simp only [body]
    refine can_tok (can_pos hv.type (can_fetch hv (by simp) fun p1 hv1 s1 => can_expect (View.type hv1) (can_param fun p2 o2 =>
      can_fetch (o2.view hv1) (by simp) fun p3 hv3 s3 => ?_)))
    refine can_rec ?_
    simp only [body]
    refine can_tok (can_neg (by rw [View.type (r := rest) hv3]; decide) (can_done (k _ _ hv3 ?_)))
    have g := s1.then (o2.go.same s3)
    rw [View.value hv1, s1.cs] at g
    exact g
  | @more x u ts xs h hxs ih =>
    intro _ p v w rest Q hv k
    refine can_rec ?_
    simp only [body]
    refine can_tok (can_pos hv.type (can_fetch hv (by simp) fun p1 hv1 s1 => can_expect (View.type hv1) (can_param fun p2 o2 =>
      can_fetch (o2.view hv1) (by simp) fun p3 hv3 s3 => ?_)))
    refine ih hxs p3 _ w rest Q hv3 fun r p4 hv4 g4 => k _ _ hv4 ?_
    have g := s1.then ((o2.go.same s3).trans g4)
    rw [s3.cs, o2.cs, View.value hv1, s1.cs] at g
    exact g

theorem idlist {ts : List T2} {xs : List Bytes} (h : Ids ts xs) {p : P} {w : Bytes} {rest : List T2} {Q : Ret → P → Prop}
    (hv : View p (ts ++ (.parclose, w) :: rest))
    (k : ∀ r p', View p' ((.parclose, w) :: rest) → Go p p' ⟨[], [], xs.foldl addParam (cs p)⟩ → Q r p') : Can (fun R => R .idlist) p Q := by
  refine can_rec ?_
  simp only [body]
  cases h with
  | nil => exact can_tok (can_pos (View.type (r := rest) hv) (can_done (k _ _ hv (Go.refl p))))
  | @one x =>
    refine can_tok (can_neg (by rw [View.type hv]; decide) (can_expect (View.type hv) (can_param fun p2 o2 =>
      can_fetch (o2.view hv) (by simp) fun p3 hv3 s3 => ?_)))
    refine can_rec ?_
    simp only [body]
    refine can_tok (can_neg (by rw [View.type (r := rest) hv3]; decide) (can_done (k _ _ hv3 ?_)))
    have g := o2.go.same s3
    rw [View.value hv] at g
    exact g
  | @more x u ts xs h hxs =>
    refine can_tok (can_neg (by rw [View.type hv]; decide) (can_expect (View.type hv) (can_param fun p2 o2 =>
      can_fetch (o2.view hv) (by simp) fun p3 hv3 s3 => ?_)))
    refine idlistRest h hxs p3 _ w rest Q hv3 fun r p4 hv4 g4 => k _ _ hv4 ?_
    have g := (o2.go.same s3).trans g4
    rw [s3.cs, o2.cs, View.value hv] at g
    exact g

/-! ### Blocks -/

/-- What follows a list of statements. -/
def Ends (b : Ast) (rest : List T2) : Prop := (∃ v r, rest = (.blockclose, v) :: r) ∨ (complete b = true ∧ ∃ v r, rest = (.eof, v) :: r)

/-- A list of statements. -/
def StatsC (ts : List T2) (b : Ast) : Prop :=
  ∀ p rest o Q, View p (ts ++ rest) → Ends b rest → (cs p).symstack ≠ [] → comp b .val (cs p) = some o →
    (∀ r p', View p' rest → Go p p' o → Q r p') → Can (fun R => R .statRest) p Q

/-- A list that is not empty starts like the loop. -/
theorem statlist_of {p : P} {Q : Ret → P → Prop} (h : Can (fun R => R .statRest) p Q) (h1 : p.tok.type ≠ .eof) (h2 : p.tok.type ≠ .blockclose) :
    Can (fun R => R .statlist) p Q := by
  obtain ⟨r, p', ⟨n, e⟩, q⟩ := h
  refine ⟨r, p', ⟨n + 1, fun m hm => ?_⟩, q⟩
  obtain ⟨m, rfl⟩ : ∃ k, m = k + 1 := ⟨m - 1, by omega⟩
  have := e (m + 1) (by omega)
  rw [← this]
  show body (parse m) .statlist p = body (parse m) .statRest p
  show _ = (if p.tok.type = .eof ∨ p.tok.type = .blockclose then done else (parse m .stat >>= fun _ => parse m .statRest)) p
  rw [if_neg (by rintro (e | e); exacts [h1 e, h2 e])]
  rfl

/-- The state after `symtPop`. -/
def popped (p : P) : P := { p with symstack := p.symstack.tail }

/-- The statements of a block and its closing brace. -/
theorem can_stats {v w : Bytes} {ts rest : List T2} {b : Ast} {p : P} {o : Out} {f : Ret → (NT → M Ret) → M Ret} {Q : Ret → P → Prop} (h : StatsC ts b) (hs : Starts (heads .stats) ts)
    (hv : View p (ts ++ (.blockclose, w) :: rest)) (hr : rest ≠ []) (hne : (cs p).symstack ≠ []) (hx : bodyC (comp b .val) (cs p) = some o)
    (k : ∀ p', View p' rest → Go p (popped p') o → Can (f ⟨0, 0, false⟩) p' Q) :
    Can (fun R => R .statlist >>= fun _ => expect .blockclose >>= fun _ => Parser.fetch >>= fun _ => closeBlock (p.symstack.headD []).length >>= fun _ =>
      f ⟨0, 0, false⟩ R) p Q := by
  obtain ⟨x, hx1, rfl⟩ := body_some hx
  have ht := hs.view hv
  refine can_bind (statlist_of ?_ (fun e => by rw [e] at ht; revert ht; decide) (fun e => by rw [e] at ht; revert ht; decide))
  refine h p _ x _ hv (Or.inl ⟨_, _, rfl⟩) hne hx1 fun r p1 hv1 g1 => ?_
  refine can_expect (View.type (r := rest) hv1) (can_fetch hv1 hr fun p2 hv2 s2 => ?_)
  have g2 := g1.same s2
  have e1 : (p2.symstack.headD []).length = x.cs.top.length := by
    show (cs p2).top.length = _
    rw [g2.cs]
  have e0 : (p.symstack.headD []).length = (cs p).top.length := rfl
  have tl : ∀ (f : Syms → Syms) (l : List Syms), (onTop f l).tail = l.tail := fun f l => by cases l <;> rfl
  rw [e0]
  by_cases hk : x.cs.top.length - (cs p).top.length ≠ 0
  · rw [if_pos hk] at k
    refine can_step (a := ()) (x := closeBlock _) (p' := { emitted (.num 43 ((x.cs.top.length - (cs p).top.length : Nat) : Int)) p2 with
      symstack := onTop (fun t => t.filter (fun e => decide (e.2.pos < (cs p).top.length))) p2.symstack }) ?_ (k _ hv2 ?_)
    · show (if (p2.symstack.headD []).length - _ ≠ 0 then _ else _ : M Unit) p2 = _
      rw [e1, if_pos hk]
      simp only [e1]
      rfl
    · have g3 := g2.emitted (l := .num 43 ((x.cs.top.length - (cs p).top.length : Nat) : Int))
      refine ⟨g3.code, g3.chunks, ?_, g3.fin⟩
      rw [← g3.cs]
      show CS.mk _ _ _ = CS.mk _ _ _
      congr 1
      exact tl _ _
  · rw [if_neg hk] at k
    refine can_step (a := ()) (x := closeBlock _) (p' := { p2 with
      symstack := onTop (fun t => t.filter (fun e => decide (e.2.pos < (cs p).top.length))) p2.symstack }) ?_ (k _ hv2 ?_)
    · show (if (p2.symstack.headD []).length - _ ≠ 0 then _ else _ : M Unit) p2 = _
      rw [e1, if_neg hk]
      rfl
    · refine ⟨by rw [List.append_nil]; exact g2.code, g2.chunks, ?_, g2.fin⟩
      rw [← g2.cs]
      show CS.mk _ _ _ = CS.mk _ _ _
      congr 1
      exact tl _ _

/-- A block: with its own scope; or in the scope of a function, dropped by the caller. -/
structure BlkC (ts : List T2) (b : Ast) : Prop where
  own : Full (.block true) [] (comp (.block b) .val) ts
  fn : ∀ p rest o Q, View p (ts ++ rest) → rest ≠ [] → (cs p).symstack ≠ [] → bodyC (comp b .val) (cs p) = some o →
    (∀ r p', View p' rest → Go p (popped p') o → Q r p') → Can (fun R => R (.block false)) p Q

theorem blk0 {v w : Bytes} : BlkC [(.blockopen, v), (.blockclose, w)] .skip := by
  constructor
  · intro p rest o Q hv hn hne hx k
    refine can_rec ?_
    simp only [body]
    refine can_expect hv.type (can_fetch hv (by simp) fun p1 hv1 s1 => can_tok (can_pos (View.type hv1) (can_fetch hv1 hn.ne fun p2 hv2 s2 => can_done (k _ _ hv2 ?_))))
    cases hx
    have := (s1.trans s2).go
    refine ⟨?_, this.chunks, this.cs, this.fin⟩
    rw [this.code]
    simp
  · intro p rest o Q hv hr hne hx k
    refine can_rec ?_
    simp only [body]
    refine can_expect hv.type (can_fetch hv (by simp) fun p1 hv1 s1 => can_tok (can_pos (View.type hv1) (can_fetch hv1 hr fun p2 hv2 s2 => can_done (k _ _ hv2 ?_))))
    cases hx
    have := (s1.trans s2).go
    refine ⟨?_, this.chunks, ?_, this.fin⟩
    · show p2.code.map Prod.fst = _
      rw [this.code]
      simp
    · show CS.mk p2.labels p2.symstack.tail p2.strings = CS.mk p.labels p.symstack.tail p.strings
      rw [s2.1, s1.1, s2.2.2.2.1, s1.2.2.2.1, s2.2.2.2.2.1, s1.2.2.2.2.1]

theorem blk {v w : Bytes} {ts : List T2} {b : Ast} (h : StatsC ts b) (hs : Starts (heads .stats) ts) : BlkC ((.blockopen, v) :: (ts ++ [(.blockclose, w)])) b := by
  constructor
  · intro p rest o Q hv hn hne hx k
    rw [List.cons_append, List.append_assoc] at hv
    refine can_rec ?_
    simp only [body]
    refine can_expect hv.type (can_fetch hv (by simp) fun p1 hv1 s1 => can_tok ?_)
    have ht := hs.view hv1
    refine can_neg (fun e => by rw [e] at ht; revert ht; decide) (can_pos trivial (can_ask ?_))
    have hl : p1.symstack.length = (cs p).symstack.length := congrArg List.length s1.2.2.2.1
    have e1 : cs p1 = cs p := s1.cs
    have step : ∀ p2, p2.tok = p1.tok → p2.toks = p1.toks → p2.code = p1.code → p2.chunks = p1.chunks → p2.fin = p1.fin →
        cs p2 = { cs p with symstack := (if (cs p).symstack.length = 1 then [] else (cs p).symstack.headD []) :: (cs p).symstack } →
        Can (fun R => ask (fun p => (p.symstack.headD []).length) >>= fun n => R .statlist >>= fun _ => expect .blockclose >>= fun _ => Parser.fetch >>= fun _ =>
          closeBlock n >>= fun _ => (if True then symtPop >>= fun _ => done else done)) p2 Q := by
      intro p2 ht hts hc hch hf hcs
      have hv2 : View p2 (ts ++ (.blockclose, w) :: rest) := by
        unfold View
        rw [ht, hts]
        exact hv1
      refine can_ask (can_stats (v := v) (f := fun _ _ => if True then symtPop >>= fun _ => done else done) h hs hv2 hn.ne ?_ (by rw [hcs]; exact hx) fun p3 hv3 g3 => ?_)
      · rw [hcs]
        simp
      · refine can_pos trivial (can_upd (can_done (k _ _ hv3 ?_)))
        refine ⟨?_, ?_, g3.cs, ?_⟩
        · rw [← s1.2.1, ← hc]
          exact g3.code
        · rw [← s1.2.2.1, ← hch]
          exact g3.chunks
        · rw [← s1.2.2.2.2.2, ← hf]
          exact g3.fin
    by_cases hk : p1.symstack.length = 1
    · refine can_pos hk (can_upd (step _ rfl rfl rfl rfl rfl ?_))
      rw [if_pos (by rw [← hl]; exact hk), ← e1]
      rfl
    · refine can_neg hk (can_upd (step _ rfl rfl rfl rfl rfl ?_))
      rw [if_neg (by rw [← hl]; exact hk), ← e1]
      rfl
  · intro p rest o Q hv hr hne hx k
    rw [List.cons_append, List.append_assoc] at hv
    refine can_rec ?_
    simp only [body]
    refine can_expect hv.type (can_fetch hv (by simp) fun p1 hv1 s1 => can_tok ?_)
    have ht := hs.view hv1
    refine can_neg (fun e => by rw [e] at ht; revert ht; decide) (can_neg (by decide) (can_ask ?_))
    refine can_stats (v := v) (f := fun _ _ => if false = true then symtPop >>= fun _ => done else done) h hs hv1 hr (by rw [s1.cs]; exact hne) (by rw [s1.cs]; exact hx) fun p3 hv3 g3 => ?_
    exact can_neg (by decide) (can_done (k _ _ hv3 (s1.then g3)))

/-! ### Functions -/

theorem modify_plain (f : Chunk → Chunk) : ∀ (l : List Chunk) (A B : List EC) (e : EC) (code : List (Ln × Pos)), l.map plain = A ++ e :: B →
    (∀ c, f c = { c with code := code }) → (l.modify A.length f).map plain = A ++ { e with code := code.map Prod.fst } :: B
  | [], A, B, e, code, h, _ => by simp at h
  | c :: l, [], B, e, code, h, hf => by
    rw [List.map_cons, List.nil_append, List.cons.injEq] at h
    show (f c :: l).map plain = _
    rw [hf, List.map_cons, h.2, ← h.1]
    rfl
  | c :: l, a :: A, B, e, code, h, hf => by
    rw [List.map_cons, List.cons_append, List.cons.injEq] at h
    show (c :: l.modify A.length f).map plain = _
    rw [List.map_cons, modify_plain f l A B e code h.2 hf, h.1]
    rfl

/-- The state in a new chunk. -/
def inChunk (sym : Option (Bytes × Nat)) (p : P) : P := { p with labels := p.labels + 1, code := [], chunks := p.chunks ++ [⟨p.labels, [], sym⟩] }

/-- A chunk is completed. -/
theorem can_chunk {sym : Option (Bytes × Nat)} {p p1 p2 : P} {c : CS} {x : C} {o : Out} {rest : List T2} {Q : Ret → P → Prop} (hv : View p2 rest)
    (hx : bodyC x c = some o) (g1 : Go (inChunk sym p) p1 ⟨[], [], c⟩) (g2 : Go p1 (popped p2) o)
    (k : ∀ p', View p' rest → Go p p' ⟨[], ⟨p.labels, o.code ++ [.op 5], sym⟩ :: o.news, o.cs⟩ → Q ⟨0, 0, false⟩ p') :
    Can (fun _ => emit (.op 5) >>= fun _ => symtPop >>= fun _ => chunkPop (p.chunks.length, p.code) >>= fun _ => done) p2 Q := by
  have g := (g1.trans g2).emitted (l := .op 5)
  refine can_emit (can_upd (can_upd (can_done (k _ hv ?_))))
  refine ⟨by rw [List.append_nil], ?_, g.cs, g.fin⟩
  have hc : (emitted (.op 5) (popped p2)).code.map Prod.fst = o.code ++ [.op 5] := by
    have := g.code
    simpa [inChunk] using this
  have hch : p2.chunks.map plain = p.chunks.map plain ++ plain ⟨p.labels, [], sym⟩ :: o.news := by
    have := g.chunks
    simpa [inChunk, popped, emitted] using this
  have := modify_plain (fun c => { c with code := (emitted (.op 5) (popped p2)).code }) p2.chunks (p.chunks.map plain) o.news _ _ hch (fun c => rfl)
  rw [List.length_map, hc] at this
  exact this

theorem lam_some {ps : List Bytes} {b : Ast} {m : Mode} {c : CS} {o : Out} (h : comp (.lam ps b) m c = some o) :
    ∃ y, bodyC (comp b .val) (ps.foldl addParam (scope { c with labels := c.labels + 1 })) = some y ∧
      o = ⟨[.ref 40 c.labels], ⟨c.labels, y.code ++ [.op 5], none⟩ :: y.news, y.cs⟩ := by
  have h' : (put [.ref 40 c.labels] ⊹ chunkC none (fun cs => ps.foldl addParam (scope cs)) (comp b .val)) c = some o := h
  obtain ⟨r1, r2, h1, h2, rfl⟩ := seq_some h'
  cases h1
  obtain ⟨y, h3, rfl⟩ := chunk_some h2
  exact ⟨y, h3, by simp⟩

theorem full_lam {u v w : Bytes} {ps ts : List T2} {xs : List Bytes} {b : Ast} (hp : Ids ps xs) (h : BlkC ts b) (hts : ts ≠ []) :
    Full .operand b0 (comp (.lam xs b) .val) ((.fun_, u) :: (.paropen, v) :: (ps ++ (.parclose, w) :: ts)) := by
  intro p rest o Q hv hn hne hx k
  obtain ⟨y, h1, rfl⟩ := lam_some hx
  rw [List.cons_append, List.cons_append, List.append_assoc] at hv
  refine can_rec ?_
  simp only [body]
  refine can_tok (can_pos hv.type (can_ask (can_emit ?_)))
  refine can_rec ?_
  simp only [body]
  refine can_expect hv.type (can_fetch hv.emitted (by simp) fun p1 hv1 s1 => ?_)
  refine can_step (x := chunkPush none) (a := (p1.chunks.length, p1.code)) (p' := inChunk none p1) rfl (can_expect hv1.type ?_)
  refine can_fetch (ts := ps ++ (.parclose, w) :: (ts ++ rest)) hv1 (by simp) fun p2 hv2 s2 => can_ask ?_
  have c1 : cs p1 = cs p := s1.cs
  have c2 : cs p2 = { cs p with labels := (cs p).labels + 1 } := by
    rw [s2.cs, ← c1]
    rfl
  have step : ∀ p3, Onto p2 p3 (scope { cs p with labels := (cs p).labels + 1 }) →
      Can (fun R => R .idlist >>= fun _ => expect .parclose >>= fun _ => Parser.fetch >>= fun _ => R (.block false) >>= fun _ =>
        emit (.op 5) >>= fun _ => symtPop >>= fun _ => chunkPop (p1.chunks.length, p1.code) >>= fun _ => done) p3 Q := by
    intro p3 o3
    refine can_bind (idlist hp (o3.view hv2) fun r4 p4 hv4 g4 => ?_)
    refine can_expect hv4.type (can_fetch hv4 (ne_app' hts) fun p5 hv5 s5 => can_bind ?_)
    rw [o3.cs] at g4
    have g5 := g4.same s5
    refine h.fn p5 rest y _ hv5 hn.ne ?_ (by rw [g5.cs]; exact h1) fun r6 p6 hv6 g6 => ?_
    · rw [g5.cs]
      intro e
      have := enter_len xs { cs p with labels := (cs p).labels + 1 }
      rw [e] at this
      simp at this
    · refine can_chunk (sym := none) hv6 h1 (p1 := p5) ?_ g6 fun p7 hv7 g7 => k _ _ hv7 ?_
      · exact s2.then (o3.then g5)
      · have l1 : p1.labels = (cs p).labels := congrArg CS.labels c1
        rw [l1] at g7
        have := emitted_go.trans (s1.then g7)
        exact this
  by_cases hk : p2.symstack.length = 1
  · refine can_pos hk (can_upd (can_addSelf fun p3 o3 => step p3 ?_))
    refine ⟨o3.tok, o3.toks, o3.code, o3.chunks, o3.fin, ?_⟩
    rw [o3.cs]
    have hk' : (cs p2).symstack.length = 1 := hk
    rw [c2] at hk'
    unfold scope
    rw [if_pos hk', ← c2]
    rfl
  · refine can_neg hk (can_upd (step _ ⟨rfl, rfl, rfl, rfl, rfl, ?_⟩))
    have hk' : ¬ (cs p2).symstack.length = 1 := hk
    rw [c2] at hk'
    unfold scope
    rw [if_neg hk', ← c2]
    rfl

/-! ### Statements -/

/-- What may follow a statement. -/
def bSt : List TT := [.dot, .idxopen, .paropen, .bandor, .lrshift, .pow, .mod, .muldiv, .addsub, .cmp, .landor, .assign]

/-- The statement ends before these tokens. -/
def After (s : Ast) (rest : List T2) : Prop :=
  Nxt bSt rest ∧ (bare s = true → ∃ v r, rest = (.blockclose, v) :: r) ∧ (openIf s = true → Nxt [.else_] rest)

/-- A statement is taken by `nt`. -/
def StatC (nt : NT) (ts : List T2) (s : Ast) : Prop :=
  ∀ p rest o Q, View p (ts ++ rest) → After s rest → (cs p).symstack ≠ [] → comp s .val (cs p) = some o →
    (∀ r p', View p' rest → Go p p' o → Q r p') → Can (fun R => R nt) p Q

theorem stat_ret0 {v : Bytes} : StatC .command [(.return_, v)] .ret0 := by
  intro p rest o Q hv ha hne hx k
  cases hx
  obtain ⟨w, r, rfl⟩ := ha.2.1 rfl
  refine can_rec ?_
  simp only [body]
  refine can_tok (can_pos hv.type (can_fetch hv (by simp) fun p1 hv1 s1 => can_tok (can_pos (Or.inr (View.type (r := r) hv1)) (can_emit (can_done (k _ _ hv1 ?_))))))
  have := s1.then (emitted_go (l := .op 5))
  rw [s1.cs] at this
  exact this

theorem stat_ret {v : Bytes} {ts : List T2} {a : Ast} (h : Full .cond bCond (comp a .val) ts) (hs : Starts (heads .cond) ts) :
    StatC .command ((.return_, v) :: ts) (.ret a) := by
  intro p rest o Q hv ha hne hx k
  obtain ⟨x, y, h1, h2, rfl⟩ := seq_some hx
  cases h2
  refine can_rec ?_
  simp only [body]
  refine can_tok (can_pos hv.type (can_fetch hv (ne_app' (ne_nil hs)) fun p1 hv1 s1 => can_tok ?_))
  have ht := hs.view hv1
  refine can_neg (by rintro (e | e) <;> (rw [e] at ht; revert ht; decide)) (can_bind ?_)
  refine h p1 rest x _ hv1 (ha.1.mono (by decide)) (by rw [s1.cs]; exact hne) (by rw [s1.cs]; exact h1) fun r p2 hv2 g2 => ?_
  have := (s1.then g2).emitted (l := .op 6)
  exact can_emit (can_done (k _ _ hv2 (by simpa using this)))

theorem assign_some {r e : Ast} {m : Mode} {c : CS} {o : Out} (h : comp (.assign r e) m c = some o) :
    ∃ x y, comp r .lval c = some x ∧ comp e .val x.cs = some y ∧ o = ⟨x.code ++ y.code ++ storeOp r c, x.news ++ y.news, y.cs⟩ := by
  have h' : (comp r .lval ⊹ comp e .val ⊹ put (storeOp r c)) c = some o := h
  obtain ⟨r1, r2, h1, h2, rfl⟩ := seq_some h'
  obtain ⟨r3, r4, h3, h4, rfl⟩ := seq_some h1
  cases h2
  exact ⟨r3, r4, h3, h4, by simp⟩

theorem stat_assign {v : Bytes} {ts us : List T2} {r e : Ast} (h : RefC ts r) (hs : Starts [.id] ts) (hc : ∀ f a, r ≠ .call f a)
    (he : Full .expr bExpr (comp e .val) us) (hus : us ≠ []) : StatC .command (ts ++ (.assign, v) :: us) (.assign r e) := by
  intro p rest o Q hv ha hne hx k
  obtain ⟨x, y, h1, h2, rfl⟩ := assign_some hx
  rw [List.append_assoc] at hv
  have ht : p.tok.type = .id := by simpa using hs.view hv
  refine can_rec ?_
  simp only [body]
  refine can_tok (can_neg (by rw [ht]; decide) (can_bind ?_))
  refine ref_end h hv (nxt_of (by decide)) hne h1 (Or.inr ⟨rfl, rfl, hc⟩) fun p1 hv1 _ g1 => can_tok (can_pos (View.type hv1) (can_neg ?_ ?_))
  · intro e
    cases r <;> first | exact hc _ _ rfl | (simp only [kind] at e; omega)
  · obtain ⟨lines, hl, g1⟩ := g1 rfl
    have ec : ∀ p2, cs p2 = cs p1 → cs p2 = x.cs := fun p2 e => by rw [e, g1.cs]
    have fin : ∀ (p2 : P) (l : List Ln), View p2 ((.assign, v) :: us ++ rest) → cs p2 = cs p1 → Go p1 p2 ⟨l, [], cs p1⟩ → x.code = lines ++ l →
        Can (fun R => Parser.fetch >>= fun _ => R .expr >>= fun _ =>
          if (kind r (cs p)).2 = true then emit (.op 29) >>= fun _ => done
          else if 0 ≤ (kind r (cs p)).1 then emit (.num 42 (kind r (cs p)).1) >>= fun _ => done
          else if (kind r (cs p)).1 = -3 then emit (.op 31) >>= fun _ => done else done) p2 Q := by
      intro p2 l hv2 e2 g2 hxl
      refine can_fetch hv2 (ne_app' hus) fun p3 hv3 s3 => can_bind ?_
      have e3 : cs p3 = x.cs := by rw [s3.cs]; exact ec p2 e2
      refine he p3 rest y _ hv3 (ha.1.mono (by decide)) (by rw [e3]; exact comp_ne h1 hne) (by rw [e3]; exact h2) fun r4 p4 hv4 g4 => ?_
      have g := ((g1.trans g2).same s3).trans g4
      rw [hxl] at k
      cases r with
      | call f a => exact absurd rfl (hc f a)
      | id z =>
        by_cases hg : (symOf z (cs p)).global = true
        · rw [show storeOp (.id z) (cs p) = [.op 29] from if_pos hg] at k
          refine can_pos hg (can_emit (can_done (k _ _ hv4.emitted ?_)))
          have := g.emitted (l := .op 29)
          simpa using this
        · rw [show storeOp (.id z) (cs p) = [.num 42 (symOf z (cs p)).pos] from if_neg hg] at k
          refine can_neg hg (can_pos (Int.natCast_nonneg _) (can_emit (can_done (k _ _ hv4.emitted ?_))))
          have := g.emitted (l := .num 42 (kind (.id z) (cs p)).1)
          simpa [kind] using this
      | _ =>
        refine can_neg (by simp [kind]) (can_neg (by simp [kind]) (can_pos rfl (can_emit (can_done (k _ _ hv4.emitted ?_)))))
        have := g.emitted (l := .op 31)
        simpa [storeOp] using this
    by_cases hg : (kind r (cs p)).2 = true
    · refine can_pos hg (can_emit (fin _ [.num 37 (kind r (cs p)).1] hv1.emitted rfl emitted_go ?_))
      rw [hl]
      simp only [tailOps, hg, if_true]
    · refine can_neg hg (fin p1 [] hv1 rfl (Go.refl p1) ?_)
      rw [hl]
      simp only [tailOps, hg, if_false]
      rfl

theorem stat_run {ts : List T2} {f a : Ast} (h : RefC ts (.call f a)) (hs : Starts [.id] ts) : StatC .command ts (.run (.call f a)) := by
  intro p rest o Q hv ha hne hx k
  obtain ⟨x, y, h1, h2, rfl⟩ := seq_some hx
  cases h2
  have ht : p.tok.type = .id := by simpa using hs.view hv
  refine can_rec ?_
  simp only [body]
  refine can_tok (can_neg (by rw [ht]; decide) (can_bind ?_))
  refine ref_end h hv (ha.1.mono (by decide)) hne h1 (Or.inl ⟨rfl, Or.inr ⟨f, a, rfl⟩⟩) fun p1 hv1 g1 _ => ?_
  have hn := hv1.nxt ha.1
  refine can_tok (can_neg (fun e => hn (by rw [e]; decide)) (can_pos rfl (can_emit (can_done (k _ _ hv1.emitted ?_)))))
  have := (g1 rfl).emitted (l := .op 4)
  simpa using this

theorem stat_simple {ts : List T2} {s : Ast} (h : StatC .command ts s) (hs : Starts (heads .simple) ts) : StatC .stat ts s := by
  intro p rest o Q hv ha hne hx k
  have ht := hs.view hv
  have no : ∀ t, t ∉ heads .simple → p.tok.type ≠ t := fun t h e => h (e ▸ ht)
  refine can_rec ?_
  simp only [body]
  refine can_tok (can_neg ?_ (can_neg (no _ (by decide)) (can_neg (no _ (by decide)) (can_neg (no _ (by decide)) (can_neg (no _ (by decide))
    (can_neg (no _ (by decide)) (h p rest o Q hv ha hne hx k)))))))
  rintro (e | e)
  · exact no _ (by decide) e
  · exact no _ (by decide) e

/-! ### Variables and functions -/

/-- The statement is none of those with a keyword before it. -/
theorem can_stat {t : TT} {nt : NT} {p : P} {Q : Ret → P → Prop} (ht : p.tok.type = t)
    (h : (t = .var ∧ nt = .var) ∨ (t = .fun_ ∧ nt = .fun_) ∨ (t = .if_ ∧ nt = .if_) ∨ (t = .for_ ∧ nt = .for_) ∨ (t = .while_ ∧ nt = .while_))
    (k : Can (fun R => R nt) p Q) : Can (fun R => R .stat) p Q := by
  refine can_rec ?_
  simp only [body]
  subst ht
  rcases h with ⟨e, rfl⟩ | ⟨e, rfl⟩ | ⟨e, rfl⟩ | ⟨e, rfl⟩ | ⟨e, rfl⟩
  · exact can_tok (can_neg (by rw [e]; decide) (can_pos e k))
  · exact can_tok (can_neg (by rw [e]; decide) (can_neg (by rw [e]; decide) (can_pos e k)))
  · exact can_tok (can_neg (by rw [e]; decide) (can_neg (by rw [e]; decide) (can_neg (by rw [e]; decide) (can_pos e k))))
  · exact can_tok (can_neg (by rw [e]; decide) (can_neg (by rw [e]; decide) (can_neg (by rw [e]; decide) (can_neg (by rw [e]; decide) (can_pos e k)))))
  · exact can_tok (can_neg (by rw [e]; decide) (can_neg (by rw [e]; decide) (can_neg (by rw [e]; decide) (can_neg (by rw [e]; decide) (can_neg (by rw [e]; decide) (can_pos e k))))))

/-- The symbol of a declared variable. -/
theorem declared {x : Bytes} {p : P} (hne : (cs p).symstack ≠ []) :
    ∃ p', symAuto x p = .ok (some ((), p')) ∧ Onto p p' (if (cs p).symstack.length = 1 then addGlobal x (cs p) else addLocal x (cs p)) ∧
      ∃ g, lookup x p'.symstack = some (if (cs p).symstack.length = 1 then ⟨(stringAdd (cs p).strings x).2, true, g⟩ else ⟨(cs p).top.length, false, 0⟩) := by
  by_cases hl : p.symstack.length = 1
  · obtain ⟨t, ht⟩ : ∃ t, p.symstack = [t] := List.length_eq_one_iff.mp hl
    refine ⟨{ p with strings := (stringAdd p.strings x).1, symstack := onBase (setGlobal x (stringAdd p.strings x).2) p.symstack }, ?_, ?_, ?_⟩
    · show symAdd x (decide (p.symstack.length = 1)) p = _
      rw [decide_eq_true hl]
      rfl
    · rw [if_pos (show (cs p).symstack.length = 1 from hl)]
      exact ⟨rfl, rfl, rfl, rfl, rfl, rfl⟩
    · simp only [if_pos (show (cs p).symstack.length = 1 from hl)]
      rw [ht]
      exact ⟨_, by simp only [onBase, lookup, setGlobal, FMap.get_set_self]; rfl⟩
  · obtain ⟨t, r, ht⟩ : ∃ t r, p.symstack = t :: r := by
      cases h : p.symstack with
      | nil => exact absurd h hne
      | cons t r => exact ⟨t, r, rfl⟩
    refine ⟨{ p with symstack := onTop (fun t => FMap.set t x ⟨t.length, false, 0⟩) p.symstack }, ?_, ?_, 0, ?_⟩
    · show symAdd x (decide (p.symstack.length = 1)) p = _
      rw [decide_eq_false hl]
      rfl
    · rw [if_neg (show ¬ (cs p).symstack.length = 1 from hl)]
      exact ⟨rfl, rfl, rfl, rfl, rfl, rfl⟩
    · rw [if_neg (show ¬ (cs p).symstack.length = 1 from hl)]
      show lookup x (onTop _ p.symstack) = some ⟨(p.symstack.headD []).length, false, 0⟩
      rw [ht]
      simp only [onTop, lookup, FMap.get_set_self]
      rfl

/-- A declaration, up to the symbol. -/
theorem can_declared {x : Bytes} {p : P} {f : Sym → (NT → M Ret) → M Ret} {Q : Ret → P → Prop} (hl : isLocal x (cs p) = false) (hne : (cs p).symstack ≠ [])
    (k : ∀ p' g, Onto p p' (if (cs p).symstack.length = 1 then addGlobal x (cs p) else addLocal x (cs p)) →
      Can (f (if (cs p).symstack.length = 1 then ⟨(stringAdd (cs p).strings x).2, true, g⟩ else ⟨(cs p).top.length, false, 0⟩)) p' Q) :
    Can (fun R => match lookup x p.symstack with
      | some ⟨_, false, _⟩ => fail
      | _ => symAuto x >>= fun _ => ask (fun p => lookup x p.symstack) >>= fun s =>
        match s with
        | none => fun _ => .ub
        | some s => f s R) p Q := by
  obtain ⟨p', e, o, g, hs⟩ := declared (x := x) hne
  have : Can (fun R => symAuto x >>= fun _ => ask (fun p => lookup x p.symstack) >>= fun s =>
        match s with
        | none => fun _ => .ub
        | some s => f s R) p Q := by
    refine can_step e (can_ask ?_)
    rw [hs]
    exact k p' g o
  unfold isLocal at hl
  have hl : (match lookup x p.symstack with | some s => !s.global | none => false) = false := hl
  cases hx : lookup x p.symstack with
  | none => exact this
  | some s =>
    rw [hx] at hl
    obtain ⟨a, b, c⟩ := s
    cases b with
    | false => simp at hl
    | true => exact this

theorem stat_decl {v x : Bytes} : StatC .stat [(.var, v), (.id, x)] (.decl x) := by
  intro p rest o Q hv ha hne hx k
  have hloc : isLocal x (cs p) = false := by
    cases h : isLocal x (cs p) with
    | false => rfl
    | true => simp [comp, h] at hx
  refine can_stat hv.type (Or.inl ⟨rfl, rfl⟩) (can_rec ?_)
  simp only [body]
  refine can_expect hv.type (can_fetch hv (by simp) fun p1 hv1 s1 => can_expect (View.type hv1) (can_tok (can_ask ?_)))
  rw [View.value hv1]
  have c1 : cs p1 = cs p := s1.cs
  have ne1 : (cs p1).symstack ≠ [] := by rw [c1]; exact hne
  refine can_declared (by rw [c1]; exact hloc) ne1 fun p2 g o2 => ?_
  rw [c1] at o2 ⊢
  have hn : p2.tok.type = p1.tok.type := congrArg Tok.type o2.tok
  simp only [comp, hloc] at hx
  by_cases hl : (cs p).symstack.length = 1
  · simp only [if_pos hl, Bool.false_eq_true, if_false, Option.some.injEq] at hx o2 ⊢
    subst hx
    refine can_pos trivial (can_emit (can_fetch (o2.view hv1).emitted ha.1.ne fun p3 hv3 s3 => can_tok ?_))
    have hn := hv3.nxt ha.1
    refine can_neg (fun e => hn (by rw [e]; decide)) (can_emit (can_pos trivial (can_emit (can_done (k _ _ hv3 ?_)))))
    have := s1.then (o2.then (((emitted_go.same s3).emitted (l := .op 2)).emitted (l := .op 29)))
    rw [o2.cs] at this
    exact this
  · simp only [if_neg hl, Bool.false_eq_true, if_false, Option.some.injEq] at hx o2 ⊢
    subst hx
    refine can_fetch (o2.view hv1) ha.1.ne fun p3 hv3 s3 => can_tok ?_
    have hn := hv3.nxt ha.1
    refine can_neg (fun e => hn (by rw [e]; decide)) (can_emit (can_emit (can_done (k _ _ hv3 ?_))))
    have := s1.then (o2.then (s3.then ((emitted_go (l := .op 2)).emitted (l := .num 42 (cs p).top.length))))
    rw [s3.cs, o2.cs] at this
    exact this

theorem stat_init {v w x : Bytes} {ts : List T2} {e : Ast} (h : Full .expr bExpr (comp e .val) ts) (hts : ts ≠ []) :
    StatC .stat ((.var, v) :: (.id, x) :: (.assign, w) :: ts) (.init x e) := by
  intro p rest o Q hv ha hne hx k
  have hloc : isLocal x (cs p) = false := by
    cases h : isLocal x (cs p) with
    | false => rfl
    | true => simp [comp, h] at hx
  refine can_stat hv.type (Or.inl ⟨rfl, rfl⟩) (can_rec ?_)
  simp only [body]
  refine can_expect hv.type (can_fetch hv (by simp) fun p1 hv1 s1 => can_expect (View.type hv1) (can_tok (can_ask ?_)))
  rw [View.value hv1]
  have c1 : cs p1 = cs p := s1.cs
  have ne1 : (cs p1).symstack ≠ [] := by rw [c1]; exact hne
  refine can_declared (by rw [c1]; exact hloc) ne1 fun p2 g o2 => ?_
  rw [c1] at o2 ⊢
  simp only [comp, hloc] at hx
  by_cases hl : (cs p).symstack.length = 1
  · simp only [if_pos hl, Bool.false_eq_true, if_false] at hx o2 ⊢
    obtain ⟨r1, r2, h1, h2, rfl⟩ := seq_some hx
    obtain ⟨r3, r4, h3, h4, rfl⟩ := seq_some h1
    cases h2
    cases h3
    refine can_pos trivial (can_emit (can_fetch (o2.view hv1).emitted (by simp) fun p3 hv3 s3 => can_tok (can_pos hv3.type (can_pos trivial ?_))))
    refine can_fetch hv3 (ne_app' hts) fun p4 hv4 s4 => can_bind ?_
    have e4 : cs p4 = addGlobal x (cs p) := by
      rw [s4.cs, s3.cs]
      exact o2.cs
    refine h p4 rest r4 _ hv4 (ha.1.mono (by decide)) ?_ (by rw [e4]; exact h4) fun r5 p5 hv5 g5 => can_pos trivial (can_emit (can_done (k _ _ hv5.emitted ?_)))
    · rw [e4]
      intro e
      have := addGlobal_len x (cs p)
      rw [e, hl] at this
      simp at this
    · have := s1.then (o2.then ((emitted_go.same (s3.trans s4)).trans g5)) |>.emitted (l := .op 29)
      simpa using this
  · simp only [if_neg hl, Bool.false_eq_true, if_false] at hx o2 ⊢
    obtain ⟨r1, r2, h1, h2, rfl⟩ := seq_some hx
    obtain ⟨r3, r4, h3, h4, rfl⟩ := seq_some h1
    cases h2
    cases h3
    refine can_fetch (o2.view hv1) (by simp) fun p3 hv3 s3 => can_tok (can_pos hv3.type (can_emit (can_emit ?_)))
    refine can_fetch hv3.emitted.emitted (ne_app' hts) fun p4 hv4 s4 => can_bind ?_
    have e4 : cs p4 = addLocal x (cs p) := by
      rw [s4.cs, ← o2.cs]
      exact s3.cs
    refine h p4 rest r4 _ hv4 (ha.1.mono (by decide)) ?_ (by rw [e4]; exact h4) fun r5 p5 hv5 g5 => can_emit (can_done (k _ _ hv5.emitted ?_))
    · rw [e4]
      intro e
      have := addLocal_len x (cs p)
      rw [e] at this
      exact hne (List.length_eq_zero_iff.mp this.symm)
    · have := s1.then (o2.then ((s3.then (emitted_go.emitted.same s4)).trans g5)) |>.emitted (l := .num 42 (cs p).top.length)
      simpa using this

theorem func_some {f : Bytes} {ps : List Bytes} {b : Ast} {m : Mode} {c : CS} {o : Out} (h : comp (.func f ps b) m c = some o) :
    ¬ c.symstack.length > 1 ∧ ∃ y, bodyC (comp b .val) (ps.foldl addParam (scope { known f c with labels := c.labels + 1 })) = some y ∧
      o = ⟨[], ⟨c.labels, y.code ++ [.op 5], some (f, (symOf f c).gen)⟩ :: y.news, y.cs⟩ := by
  simp only [comp] at h
  by_cases hl : c.symstack.length > 1
  · rw [if_pos hl] at h
    cases h
  · rw [if_neg hl] at h
    obtain ⟨y, h1, rfl⟩ := chunk_some h
    have : (known f c).labels = c.labels := by
      unfold known
      split <;> rfl
    rw [this] at h1
    exact ⟨hl, y, h1, by rw [this]⟩

theorem can_known' {β : Type} {x : Bytes} {y : (NT → M Ret) → M β} {p : P} {Q : β → P → Prop} (hl : p.symstack.length = 1)
    (h : ∀ p', Onto p p' (known x (cs p)) → Can y p' Q) :
    Can (fun R => if lookup x p.symstack = none then (symAuto x >>= fun _ => y R) else y R) p Q := by
  by_cases e : lookup x p.symstack = none
  · refine can_pos e (can_step (x := symAuto x) (a := ()) (p' :=
      { p with strings := (stringAdd p.strings x).1, symstack := onBase (setGlobal x (stringAdd p.strings x).2) p.symstack }) ?_ (h _ ⟨rfl, rfl, rfl, rfl, rfl, ?_⟩))
    · show symAdd x (decide (p.symstack.length = 1)) p = _
      rw [decide_eq_true hl]
      rfl
    · unfold known
      rw [if_pos (show lookup x (cs p).symstack = none from e)]
      rfl
  · refine can_neg e (h p ⟨rfl, rfl, rfl, rfl, rfl, ?_⟩)
    unfold known
    rw [if_neg (show ¬ lookup x (cs p).symstack = none from e)]

theorem stat_func {u v w f : Bytes} {ps ts doc : List T2} {xs : List Bytes} {b : Ast} (hp : Ids ps xs) (h : BlkC ts b) (hts : Starts [.blockopen] ts)
    (hd : doc = [] ∨ ∃ d, doc = [(.string, d)]) :
    StatC .stat ((.fun_, u) :: (.id, f) :: (.paropen, v) :: (ps ++ (.parclose, w) :: (doc ++ ts))) (.func f xs b) := by
  intro p rest o Q hv ha hne hx k
  obtain ⟨hl, y, h1, rfl⟩ := func_some hx
  have hl1 : (cs p).symstack.length = 1 := by
    have : (cs p).symstack.length ≠ 0 := fun e => hne (List.length_eq_zero_iff.mp e)
    omega
  rw [List.cons_append, List.cons_append, List.cons_append, List.append_assoc, List.cons_append, List.append_assoc] at hv
  refine can_stat hv.type (Or.inr (Or.inl ⟨rfl, rfl⟩)) (can_rec ?_)
  simp only [body]
  refine can_expect hv.type (can_fetch hv (by simp) fun p1 hv1 s1 => can_expect hv1.type (can_tok (can_ask ?_)))
  have c1 : cs p1 = cs p := s1.cs
  have hl2 : p1.symstack.length = 1 := by
    rw [← hl1, ← c1]
    rfl
  refine can_neg (by rw [hl2]; decide) (can_ask ?_)
  rw [hv1.value]
  refine can_known' hl2 fun p2 o2 => can_ask ?_
  have hv2 := o2.view hv1
  have c2 : cs p2 = known f (cs p) := by rw [o2.cs, c1]
  have hl : lookup f p2.symstack = some (symOf f (cs p)) := by
    have := lookup_known f hne
    rw [← c2] at this
    exact this
  rw [hl]
  refine can_step (x := chunkPush (some (f, (symOf f (cs p)).gen))) (a := (p2.chunks.length, p2.code)) (p' := inChunk (some (f, (symOf f (cs p)).gen)) p2) rfl ?_
  refine can_fetch (t := (.id, f)) hv2 (by simp) fun p3 hv3 s3 => can_expect hv3.type (can_fetch hv3 (by simp) fun p4 hv4 s4 => can_upd ?_)
  have c4 : cs p4 = { known f (cs p) with labels := (cs p).labels + 1 } := by
    rw [s4.cs, s3.cs, ← c2]
    show CS.mk (p2.labels + 1) _ _ = CS.mk _ _ _
    have : p2.labels = (cs p).labels := by
      have := congrArg CS.labels c2
      have e : (known f (cs p)).labels = (cs p).labels := by
        unfold known
        split <;> rfl
      rw [e] at this
      exact this
    rw [this]
    rfl
  refine can_addSelf fun p5 o5 => can_bind (idlist hp (rest := doc ++ (ts ++ rest)) (o5.view hv4) fun r6 p6 hv6 g6 => ?_)
  have o5' : Onto p4 p5 (scope { known f (cs p) with labels := (cs p).labels + 1 }) := by
    refine ⟨o5.tok, o5.toks, o5.code, o5.chunks, o5.fin, ?_⟩
    rw [o5.cs]
    unfold scope
    rw [if_pos (show (known f (cs p)).symstack.length = 1 by rw [known_len]; exact hl1), ← c4]
    rfl
  rw [o5'.cs] at g6
  have rest7 : ∀ p7, View p7 (ts ++ rest) → Same p6 p7 → Can (fun R => R (.block false) >>= fun _ => emit (.op 5) >>= fun _ => symtPop >>= fun _ =>
      chunkPop (p2.chunks.length, p2.code) >>= fun _ => done) p7 Q := by
    intro p7 hv7 s7
    have g7 := g6.same s7
    refine can_bind (h.fn p7 rest y _ hv7 ha.1.ne ?_ (by rw [g7.cs]; exact h1) fun r8 p8 hv8 g8 => ?_)
    · rw [g7.cs]
      intro e
      have := enter_len xs { known f (cs p) with labels := (cs p).labels + 1 }
      rw [e] at this
      simp at this
    · refine can_chunk (sym := some (f, (symOf f (cs p)).gen)) (p := p2) hv8 h1 (p1 := p7) ((s3.trans s4).then (o5'.then g7)) g8 fun p9 hv9 g9 => k _ _ hv9 ?_
      have l2 : p2.labels = (cs p).labels := by
        have := congrArg CS.labels c2
        have e : (known f (cs p)).labels = (cs p).labels := by
          unfold known
          split <;> rfl
        rw [e] at this
        exact this
      rw [l2] at g9
      exact s1.then (o2.then g9)
  refine can_expect hv6.type ?_
  rcases hd with rfl | ⟨d, rfl⟩
  · refine can_fetch hv6 (by simp [ne_nil hts]) fun p7 hv7 s7 => can_tok (can_neg ?_ (rest7 p7 hv7 s7))
    have : p7.tok.type = .blockopen := by simpa using hts.view hv7
    rw [this]
    decide
  · exact can_fetch hv6 (by simp) fun p7 hv7 s7 => can_tok (can_pos (View.type (r := ts ++ rest) hv7) (can_fetch (ts := ts ++ rest) hv7 (by simp [ne_nil hts]) fun p8 hv8 s8 =>
      rest7 p8 hv8 (s7.trans s8)))

/-! ### Control -/

theorem Starts.ne_close {ts rest : List T2} {p : P} (h : Starts (heads .stat) ts) (hv : View p (ts ++ rest)) : ¬ (p.tok.type = .eof ∨ p.tok.type = .blockclose) := by
  have := h.view hv
  rintro (e | e) <;> (rw [e] at this; revert this; decide)

theorem sub_stat {ts : List T2} {s : Ast} (h : StatC .stat ts s) (hs : Starts (heads .stat) ts) : StatC .blockstat ts s := by
  intro p rest o Q hv ha hne hx k
  refine can_rec ?_
  simp only [body]
  refine can_tok (can_neg (fun e => ?_) (h p rest o Q hv ha hne hx k))
  have := hs.view hv
  rw [e] at this
  revert this
  decide

theorem sub_blk {ts : List T2} {b : Ast} (h : BlkC ts b) (hs : Starts [.blockopen] ts) : StatC .blockstat ts (.block b) := by
  intro p rest o Q hv ha hne hx k
  refine can_rec ?_
  simp only [body]
  have : p.tok.type = .blockopen := by simpa using hs.view hv
  exact can_tok (can_pos this (h.own p rest o Q hv (ha.1.mono (by simp)) hne hx k))

theorem sub_none : StatC .blockstat [] .skip := by
  intro p rest o Q hv ha hne hx k
  cases hx
  obtain ⟨v, r, rfl⟩ := ha.2.1 rfl
  have ht : p.tok.type = .blockclose := View.type (r := r) hv
  refine can_rec ?_
  simp only [body]
  refine can_tok (can_neg (by rw [ht]; decide) (can_rec ?_))
  simp only [body]
  exact can_tok (can_pos (Or.inr ht) (can_done (k _ _ hv (Go.refl p))))

/-- `n` labels are taken. -/
def labelled (n : Nat) (p : P) : P := { p with labels := p.labels + n }

theorem can_labels {β : Type} {n : Nat} {f : Nat → (NT → M Ret) → M β} {p : P} {Q : β → P → Prop} (h : Can (f p.labels) (labelled n p) Q) :
    Can (fun R => newLabels n >>= fun a => f a R) p Q := can_step rfl h

theorem labelled_go (n : Nat) (p : P) : Go p (labelled n p) ⟨[], [], { cs p with labels := (cs p).labels + n }⟩ := ⟨by simp [labelled], by simp [labelled], rfl, rfl⟩

theorem labels_ne {c : CS} {n : Nat} (h : c.symstack ≠ []) : CS.symstack { c with labels := c.labels + n } ≠ [] := h

theorem ifs_some {c a : Ast} {m : Mode} {s : CS} {o : Out} (h : comp (.ifs c a) m s = some o) :
    ∃ x y, comp c .val { s with labels := s.labels + 2 } = some x ∧ comp a .val x.cs = some y ∧
      o = ⟨x.code ++ [.ref 45 s.labels] ++ y.code ++ [.lab s.labels], x.news ++ y.news, y.cs⟩ := by
  have h : (comp c .val ⊹ put [.ref 45 s.labels] ⊹ comp a .val ⊹ put [.lab s.labels]) { s with labels := s.labels + 2 } = some o := h
  obtain ⟨r1, r2, h1, h2, rfl⟩ := seq_some h
  obtain ⟨r3, r4, h3, h4, rfl⟩ := seq_some h1
  obtain ⟨r5, r6, h5, h6, rfl⟩ := seq_some h3
  cases h2
  cases h6
  exact ⟨r5, r4, h5, h4, by simp⟩

theorem stat_ifs {u v w : Bytes} {cs' ts : List T2} {c a : Ast} (hc : Full .cond bCond (comp c .val) cs') (hcs : cs' ≠ []) (h : StatC .blockstat ts a) :
    StatC .stat ((.if_, u) :: (.paropen, v) :: (cs' ++ (.parclose, w) :: ts)) (.ifs c a) := by
  intro p rest o Q hv ha hne hx k
  obtain ⟨x, y, h1, h2, rfl⟩ := ifs_some hx
  rw [List.cons_append, List.cons_append, List.append_assoc, List.cons_append] at hv
  refine can_stat hv.type (Or.inr (Or.inr (Or.inl ⟨rfl, rfl⟩))) (can_rec ?_)
  simp only [body]
  refine can_labels (can_expect hv.type (can_fetch (p := labelled 2 p) hv (by simp) fun p1 hv1 s1 => can_expect hv1.type (can_fetch hv1 (ne_app' hcs) fun p2 hv2 s2 => can_bind ?_)))
  have e2 : cs p2 = { cs p with labels := (cs p).labels + 2 } := by
    rw [s2.cs, s1.cs]
    rfl
  refine hc p2 _ x _ hv2 (nxt_of (by decide)) (by rw [e2]; exact hne) (by rw [e2]; exact h1) fun r3 p3 hv3 g3 => ?_
  refine can_expect hv3.type (can_fetch hv3 (ne_app ha.1.ne) fun p4 hv4 s4 => can_emit (can_bind ?_))
  have e4 : cs (emitted (.ref 45 p.labels) p4) = x.cs := by
    show cs p4 = _
    rw [s4.cs, g3.cs]
  refine h _ rest y _ hv4.emitted ⟨ha.1, ha.2.1, fun _ => ha.2.2 rfl⟩ (by rw [e4]; exact comp_ne h1 (labels_ne hne)) (by rw [e4]; exact h2) fun r5 p5 hv5 g5 => can_tok ?_
  have hn := hv5.nxt (ha.2.2 rfl)
  refine can_neg (by simpa using hn) (can_emit (can_done (k _ _ hv5.emitted ?_)))
  have := ((labelled_go 2 p).trans ((s1.trans s2).then (((g3.same s4).emitted (l := .ref 45 p.labels)).trans g5))).emitted (l := .lab p.labels)
  simpa [show (cs p).labels = p.labels from rfl] using this

theorem ite_some {c a b : Ast} {m : Mode} {s : CS} {o : Out} (h : comp (.ite c a b) m s = some o) :
    ∃ x y z, comp c .val { s with labels := s.labels + 2 } = some x ∧ comp a .val x.cs = some y ∧ comp b .val y.cs = some z ∧
      o = ⟨x.code ++ [.ref 45 s.labels] ++ y.code ++ [.ref 44 (s.labels + 1), .lab s.labels] ++ z.code ++ [.lab (s.labels + 1)], x.news ++ y.news ++ z.news, z.cs⟩ := by
  have h : (comp c .val ⊹ put [.ref 45 s.labels] ⊹ comp a .val ⊹ put [.ref 44 (s.labels + 1), .lab s.labels] ⊹ comp b .val ⊹ put [.lab (s.labels + 1)])
    { s with labels := s.labels + 2 } = some o := h
  obtain ⟨r1, r2, h1, h2, rfl⟩ := seq_some h
  obtain ⟨r3, r4, h3, h4, rfl⟩ := seq_some h1
  obtain ⟨r5, r6, h5, h6, rfl⟩ := seq_some h3
  obtain ⟨r7, r8, h7, h8, rfl⟩ := seq_some h5
  obtain ⟨r9, r10, h9, h10, rfl⟩ := seq_some h7
  cases h2
  cases h6
  cases h10
  exact ⟨r9, r8, r4, h9, h8, h4, by simp⟩

theorem stat_ite {u v w e : Bytes} {cs' ts us : List T2} {c a b : Ast} (hc : Full .cond bCond (comp c .val) cs') (hcs : cs' ≠ []) (h : StatC .blockstat ts a)
    (hb : bare a = false) (ho : openIf a = false) (h' : StatC .blockstat us b) :
    StatC .stat ((.if_, u) :: (.paropen, v) :: (cs' ++ (.parclose, w) :: (ts ++ (.else_, e) :: us))) (.ite c a b) := by
  intro p rest o Q hv ha hne hx k
  obtain ⟨x, y, z, h1, h2, h3, rfl⟩ := ite_some hx
  rw [List.cons_append, List.cons_append, List.append_assoc, List.cons_append, List.append_assoc] at hv
  refine can_stat hv.type (Or.inr (Or.inr (Or.inl ⟨rfl, rfl⟩))) (can_rec ?_)
  simp only [body]
  refine can_labels (can_expect hv.type (can_fetch (p := labelled 2 p) hv (by simp) fun p1 hv1 s1 => can_expect hv1.type (can_fetch hv1 (ne_app' hcs) fun p2 hv2 s2 => can_bind ?_)))
  have e2 : cs p2 = { cs p with labels := (cs p).labels + 2 } := by
    rw [s2.cs, s1.cs]
    rfl
  refine hc p2 _ x _ hv2 (nxt_of (by decide)) (by rw [e2]; exact hne) (by rw [e2]; exact h1) fun r3 p3 hv3 g3 => ?_
  refine can_expect hv3.type (can_fetch hv3 (by simp) fun p4 hv4 s4 => can_emit (can_bind ?_))
  have e4 : cs (emitted (.ref 45 p.labels) p4) = x.cs := by
    show cs p4 = _
    rw [s4.cs, g3.cs]
  have ne4 := comp_ne h1 (labels_ne hne)
  refine h _ ((.else_, e) :: us ++ rest) y _ hv4.emitted ⟨nxt_of (by decide), by simp [hb], by simp [ho]⟩ (by rw [e4]; exact ne4) (by rw [e4]; exact h2) fun r5 p5 hv5 g5 => can_tok ?_
  refine can_pos (View.type (r := us ++ rest) hv5) (can_fetch hv5 (ne_app ha.1.ne) fun p6 hv6 s6 => can_emit (can_emit (can_bind ?_)))
  have e6 : cs (emitted (.lab p.labels) (emitted (.ref 44 (p.labels + 1)) p6)) = y.cs := by
    show cs p6 = _
    rw [s6.cs, g5.cs]
  refine h' _ rest z _ hv6.emitted.emitted ha (by rw [e6]; exact comp_ne h2 ne4) (by rw [e6]; exact h3) fun r7 p7 hv7 g7 => can_emit (can_done (k _ _ hv7.emitted ?_))
  have := ((labelled_go 2 p).trans ((s1.trans s2).then (((((((g3.same s4).emitted (l := .ref 45 p.labels)).trans g5).same s6).emitted
    (l := .ref 44 (p.labels + 1))).emitted (l := .lab p.labels)).trans g7))).emitted (l := .lab (p.labels + 1))
  simpa [show (cs p).labels = p.labels from rfl] using this

theorem while_some {c a : Ast} {m : Mode} {s : CS} {o : Out} (h : comp (.while_ c a) m s = some o) :
    ∃ x y, comp c .val { s with labels := s.labels + 2 } = some x ∧ comp a .val x.cs = some y ∧
      o = ⟨.lab s.labels :: x.code ++ [.ref 45 (s.labels + 1)] ++ y.code ++ [.ref 44 s.labels, .lab (s.labels + 1)], x.news ++ y.news, y.cs⟩ := by
  have h : (put [.lab s.labels] ⊹ comp c .val ⊹ put [.ref 45 (s.labels + 1)] ⊹ comp a .val ⊹ put [.ref 44 s.labels, .lab (s.labels + 1)])
    { s with labels := s.labels + 2 } = some o := h
  obtain ⟨r1, r2, h1, h2, rfl⟩ := seq_some h
  obtain ⟨r3, r4, h3, h4, rfl⟩ := seq_some h1
  obtain ⟨r5, r6, h5, h6, rfl⟩ := seq_some h3
  obtain ⟨r7, r8, h7, h8, rfl⟩ := seq_some h5
  cases h2
  cases h6
  cases h7
  exact ⟨r8, r4, h8, h4, by simp⟩

theorem stat_while {u v w : Bytes} {cs' ts : List T2} {c a : Ast} (hc : Full .cond bCond (comp c .val) cs') (hcs : cs' ≠ []) (h : StatC .blockstat ts a) :
    StatC .stat ((.while_, u) :: (.paropen, v) :: (cs' ++ (.parclose, w) :: ts)) (.while_ c a) := by
  intro p rest o Q hv ha hne hx k
  obtain ⟨x, y, h1, h2, rfl⟩ := while_some hx
  rw [List.cons_append, List.cons_append, List.append_assoc, List.cons_append] at hv
  refine can_stat hv.type (Or.inr (Or.inr (Or.inr (Or.inr ⟨rfl, rfl⟩)))) (can_rec ?_)
  simp only [body]
  refine can_labels (can_expect hv.type (can_fetch (p := labelled 2 p) hv (by simp) fun p1 hv1 s1 => can_expect hv1.type (can_fetch hv1 (ne_app' hcs) fun p2 hv2 s2 => can_emit (can_bind ?_))))
  have e2 : cs (emitted (.lab p.labels) p2) = { cs p with labels := (cs p).labels + 2 } := by
    show cs p2 = _
    rw [s2.cs, s1.cs]
    rfl
  refine hc _ _ x _ hv2.emitted (nxt_of (by decide)) (by rw [e2]; exact hne) (by rw [e2]; exact h1) fun r3 p3 hv3 g3 => ?_
  refine can_expect hv3.type (can_fetch hv3 (ne_app ha.1.ne) fun p4 hv4 s4 => can_emit (can_bind ?_))
  have e4 : cs (emitted (.ref 45 (p.labels + 1)) p4) = x.cs := by
    show cs p4 = _
    rw [s4.cs, g3.cs]
  refine h _ rest y _ hv4.emitted ha (by rw [e4]; exact comp_ne h1 (labels_ne hne)) (by rw [e4]; exact h2) fun r5 p5 hv5 g5 =>
    can_emit (can_emit (can_done (k _ _ hv5 ?_)))
  have := (((labelled_go 2 p).trans ((s1.trans s2).then (((emitted_go.trans (g3.same s4)).emitted (l := .ref 45 (p.labels + 1))).trans g5))).emitted (l := .ref 44 p.labels)).emitted
    (l := .lab (p.labels + 1))
  simpa [show (cs p).labels = p.labels from rfl] using this

theorem for_some {i c u a : Ast} {m : Mode} {s : CS} {o : Out} (h : comp (.for_ i c u a) m s = some o) :
    ∃ w x y z, comp i .val { s with labels := s.labels + 4 } = some w ∧ comp c .val w.cs = some x ∧ comp u .val x.cs = some y ∧ comp a .val y.cs = some z ∧
      o = ⟨w.code ++ [.lab s.labels] ++ x.code ++ [.ref 46 (s.labels + 2), .ref 44 (s.labels + 3), .lab (s.labels + 1)] ++ y.code ++
        [.ref 44 s.labels, .lab (s.labels + 2)] ++ z.code ++ [.ref 44 (s.labels + 1), .lab (s.labels + 3)], w.news ++ x.news ++ y.news ++ z.news, z.cs⟩ := by
  have h : (comp i .val ⊹ put [.lab s.labels] ⊹ comp c .val ⊹ put [.ref 46 (s.labels + 2), .ref 44 (s.labels + 3), .lab (s.labels + 1)] ⊹ comp u .val ⊹
    put [.ref 44 s.labels, .lab (s.labels + 2)] ⊹ comp a .val ⊹ put [.ref 44 (s.labels + 1), .lab (s.labels + 3)]) { s with labels := s.labels + 4 } = some o := h
  obtain ⟨r1, r2, h1, h2, rfl⟩ := seq_some h
  obtain ⟨r3, r4, h3, h4, rfl⟩ := seq_some h1
  obtain ⟨r5, r6, h5, h6, rfl⟩ := seq_some h3
  obtain ⟨r7, r8, h7, h8, rfl⟩ := seq_some h5
  obtain ⟨r9, r10, h9, h10, rfl⟩ := seq_some h7
  obtain ⟨r11, r12, h11, h12, rfl⟩ := seq_some h9
  obtain ⟨r13, r14, h13, h14, rfl⟩ := seq_some h11
  cases h2
  cases h6
  cases h10
  cases h14
  exact ⟨r13, r12, r8, r4, h13, h12, h8, h4, by simp⟩

theorem simple_open {ts : List T2} {c : Cat} {s : Ast} (h : Syn c ts s) (hc : c = .simple) : openIf s = false := by
  cases h <;> first | rfl | (exact absurd hc (by simp))

theorem stat_for {u v w x' y' : Bytes} {is cs' us ts : List T2} {i c n a : Ast} (hi : StatC .command is i) (his : is ≠ []) (hbi : bare i = false) (hoi : openIf i = false)
    (hc : Full .cond bCond (comp c .val) cs') (hcs : cs' ≠ []) (hn : StatC .command us n) (hus : us ≠ []) (hbn : bare n = false) (hon : openIf n = false) (h : StatC .blockstat ts a) :
    StatC .stat ((.for_, u) :: (.paropen, v) :: (is ++ (.listsep, w) :: (cs' ++ (.listsep, x') :: (us ++ (.parclose, y') :: ts)))) (.for_ i c n a) := by
  intro p rest o Q hv ha hne hx k
  obtain ⟨w, x, y, z, h1, h2, h3, h4, rfl⟩ := for_some hx
  rw [List.cons_append, List.cons_append, List.append_assoc, List.cons_append, List.append_assoc, List.cons_append, List.append_assoc, List.cons_append] at hv
  refine can_stat hv.type (Or.inr (Or.inr (Or.inr (Or.inl ⟨rfl, rfl⟩)))) (can_rec ?_)
  simp only [body]
  refine can_labels (can_expect hv.type (can_fetch (p := labelled 4 p) hv (by simp) fun p1 hv1 s1 => can_expect hv1.type (can_fetch hv1 (ne_app' his) fun p2 hv2 s2 => can_bind ?_)))
  have e2 : cs p2 = { cs p with labels := (cs p).labels + 4 } := by
    rw [s2.cs, s1.cs]
    rfl
  refine hi p2 _ w _ hv2 ⟨nxt_of (by decide), by simp [hbi], by simp [hoi]⟩ (by rw [e2]; exact hne) (by rw [e2]; exact h1) fun r3 p3 hv3 g3 => ?_
  have ne3 := comp_ne h1 (labels_ne hne)
  refine can_expect hv3.type (can_fetch hv3 (ne_app' hcs) fun p4 hv4 s4 => can_emit (can_bind ?_))
  have e4 : cs (emitted (.lab p.labels) p4) = w.cs := by
    show cs p4 = _
    rw [s4.cs, g3.cs]
  refine hc _ _ x _ hv4.emitted (nxt_of (by decide)) (by rw [e4]; exact ne3) (by rw [e4]; exact h2) fun r5 p5 hv5 g5 => ?_
  have ne5 := comp_ne h2 ne3
  refine can_expect hv5.type (can_fetch hv5 (ne_app' hus) fun p6 hv6 s6 => can_emit (can_emit (can_emit (can_bind ?_))))
  have e6 : cs (emitted (.lab (p.labels + 1)) (emitted (.ref 44 (p.labels + 3)) (emitted (.ref 46 (p.labels + 2)) p6))) = x.cs := by
    show cs p6 = _
    rw [s6.cs, g5.cs]
  refine hn _ _ y _ hv6.emitted.emitted.emitted ⟨nxt_of (by decide), by simp [hbn], by simp [hon]⟩ (by rw [e6]; exact ne5) (by rw [e6]; exact h3) fun r7 p7 hv7 g7 => ?_
  have ne7 := comp_ne h3 ne5
  refine can_expect hv7.type (can_fetch hv7 (ne_app ha.1.ne) fun p8 hv8 s8 => can_emit (can_emit (can_bind ?_)))
  have e8 : cs (emitted (.lab (p.labels + 2)) (emitted (.ref 44 p.labels) p8)) = y.cs := by
    show cs p8 = _
    rw [s8.cs, g7.cs]
  refine h _ rest z _ hv8.emitted.emitted ha (by rw [e8]; exact ne7) (by rw [e8]; exact h4) fun r9 p9 hv9 g9 => can_emit (can_emit (can_done (k _ _ hv9 ?_)))
  have a1 := ((labelled_go 4 p).trans ((s1.trans s2).then (g3.same s4))).emitted (l := .lab p.labels)
  have a2 := ((((a1.trans g5).same s6).emitted (l := .ref 46 (p.labels + 2))).emitted (l := .ref 44 (p.labels + 3))).emitted (l := .lab (p.labels + 1))
  have a3 := (((a2.trans g7).same s8).emitted (l := .ref 44 p.labels)).emitted (l := .lab (p.labels + 2))
  have a4 := ((a3.trans g9).emitted (l := .ref 44 (p.labels + 1))).emitted (l := .lab (p.labels + 3))
  simpa [show (cs p).labels = p.labels from rfl] using a4

/-! ### Lists of statements -/

theorem stats_nil : StatsC [] .skip := by
  intro p rest o Q hv he hne hx k
  cases hx
  refine can_rec ?_
  simp only [body]
  refine can_tok (can_pos ?_ (can_done (k _ _ hv (Go.refl p))))
  rcases he with ⟨v, r, rfl⟩ | ⟨_, v, r, rfl⟩
  · exact Or.inr (View.type (r := r) hv)
  · exact Or.inl (View.type (r := r) hv)

theorem stats_cons {ts us : List T2} {s l : Ast} (h : StatC .stat ts s) (hs : Starts (heads .stat) ts) (hl : StatsC us l) (hus : us = [] ∧ l = .skip ∨ Starts (heads .stat) us)
    (hb : bare s = true → us = []) : StatsC (ts ++ us) (.seq s l) := by
  intro p rest o Q hv he hne hx k
  obtain ⟨x, y, h1, h2, rfl⟩ := seq_some hx
  rw [List.append_assoc] at hv
  refine can_rec ?_
  simp only [body]
  refine can_tok (can_neg (hs.ne_close hv) (can_bind ?_))
  have hend : Ends l rest := by
    rcases he with he | ⟨hc, he⟩
    · exact Or.inl he
    · refine Or.inr ⟨?_, he⟩
      cases l <;> first | rfl | exact hc
  have haft : After s (us ++ rest) := by
    rcases hus with ⟨rfl, rfl⟩ | hus
    · rcases he with ⟨v, r, rfl⟩ | ⟨hc, v, r, rfl⟩
      · exact ⟨nxt_of (by decide), fun _ => ⟨v, r, rfl⟩, fun _ => nxt_of (by decide)⟩
      · refine ⟨nxt_of (by decide), fun hb => ?_, fun _ => nxt_of (by decide)⟩
        simp [complete, hb] at hc
    · refine ⟨hus.nxt (by decide), fun h => ?_, fun _ => hus.nxt (by decide)⟩
      exact absurd (hb h) (ne_nil hus)
  refine h p (us ++ rest) x _ hv haft hne h1 fun r1 p1 hv1 g1 => ?_
  exact hl p1 rest y Q hv1 hend (by rw [g1.cs]; exact comp_ne h1 hne) (by rw [g1.cs]; exact h2) fun r2 p2 hv2 g2 => k _ _ hv2 (g1.trans g2)

/-! ### Everything -/

/-- What is shown of a phrase. -/
def Claim (c : Cat) (ts : List T2) (a : Ast) : Prop :=
  match c with
  | .cond => Full .cond bCond (comp a .val) ts
  | .logic => Pre .cond .condRest bCmp (comp a .val) ts
  | .cmp => Full .cmp bCmp (comp a .val) ts
  | .expr => Full .expr bExpr (comp a .val) ts
  | .sum => Pre .expr .sumRest bProd (comp a .val) ts
  | .prod => Pre .prod .prodRest bMod (comp a .val) ts
  | .modu => Pre .modulo .modRest bPow (comp a .val) ts
  | .pow => Full .power bPow (comp a .val) ts
  | .shift e => Pre .shift .shiftRest (if e then bPow else bAO) (comp a .val) ts
  | .andor e => Pre .andor .andorRest (if e then bPow else b0) (comp a .val) ts
  | .bnot e => Full .bnot (if e then bPow else b0) (comp a .val) ts
  | .opnd e => Full .operand (if e then bPow else b0) (comp a .val) ts
  | .ref => RefC ts a
  | .args => Pre .condlist (.condlistRest (nargs a)) bCond (comp a .val) ts
  | .table => Entries ts a
  | .simple => StatC .command ts a
  | .stat => StatC .stat ts a
  | .sub => StatC .blockstat ts a
  | .stats => StatsC ts a
  | .blk => BlkC ts a

theorem andor_full {e : Bool} {x : C} {ts : List T2} (h : Pre .andor .andorRest (if e then bPow else b0) x ts) : Full .andor (if e then bPow else bAO) x ts := by
  cases e with
  | true => exact h.full (by simp) fun p Q hp k => andorRest_end p Q (fun e => hp (by rw [← e]; decide)) k
  | false => exact h.full (by decide) fun p Q hp k => andorRest_end p Q (fun e => hp (by rw [← e]; decide)) k

theorem shift_full {e : Bool} {x : C} {ts : List T2} (h : Pre .shift .shiftRest (if e then bPow else bAO) x ts) : Full .shift (if e then bPow else bSh) x ts := by
  cases e with
  | true => exact h.full (by simp) fun p Q hp k => shiftRest_end p Q (fun e => hp (by rw [← e]; decide)) k
  | false => exact h.full (by decide) fun p Q hp k => shiftRest_end p Q (fun e => hp (by rw [← e]; decide)) k

theorem stats_shape {c : Cat} {ts : List T2} {b : Ast} (h : Syn c ts b) (hc : c = .stats) : ts = [] ∧ b = .skip ∨ Starts (heads .stat) ts := by
  cases h with
  | stats0 => exact Or.inl ⟨rfl, rfl⟩
  | stats h1 _ _ => exact Or.inr ((h1.starts (by decide) (by decide)).app _)
  | _ => cases hc

theorem syn_ne {c : Cat} {ts : List T2} {a : Ast} (h : Syn c ts a) (h1 : c ≠ .sub) (h2 : c ≠ .stats) : ts ≠ [] := ne_nil (h.starts h1 h2)

/-- The compiler does what `comp` says, for every phrase. -/
theorem claim {c : Cat} {ts : List T2} {a : Ast} (h : Syn c ts a) : Claim c ts a := by
  induction h with
  | not h ih => exact full_not ih (syn_ne h (by decide) (by decide))
  | cond h ih => exact Pre.full ih (by decide) condRest_end
  | logic1 h ih => exact pre_logic1 ih (h.starts (by decide) (by decide))
  | logic h t h' ih ih' => exact pre_logic ih t ih' (syn_ne h' (by decide) (by decide))
  | cmp1 h ih => exact full_cmp1 ih
  | cmp h t h' ih ih' => exact full_cmp ih t ih' (syn_ne h' (by decide) (by decide))
  | tab0 => exact full_tab0
  | tab h ih => exact full_tab ih (h.starts (by decide) (by decide))
  | entry1 k h ih => exact entries_one k ih (syn_ne h (by decide) (by decide))
  | entry h k h' ih ih' => exact entries_more ih k ih' (syn_ne h' (by decide) (by decide))
  | expr h ih => exact Pre.full ih (by decide) sumRest_end
  | sum1 h ih => exact pre_sum1 (Pre.full ih (by decide) prodRest_end) ((h.starts (by decide) (by decide)).mono (by decide))
  | sum h t h' ih ih' => exact pre_sum ih t (Pre.full ih' (by decide) prodRest_end) (syn_ne h' (by decide) (by decide))
  | prod1 h ih => exact pre_prod1 (Pre.full ih (by decide) modRest_end)
  | prod h t h' ih ih' => exact pre_prod ih t (Pre.full ih' (by decide) modRest_end) (syn_ne h' (by decide) (by decide))
  | modu1 h ih => exact pre_modu1 ih
  | modu h t h' ih ih' => exact pre_modu ih t ih' (syn_ne h' (by decide) (by decide))
  | @pow1 e _ _ h ih => exact full_pow1 (shift_full ih) (by cases e <;> decide)
  | pow h t h' ih ih' => exact full_pow (shift_full (e := false) ih) t ih' (syn_ne h' (by decide) (by decide))
  | shift1 h ih => exact pre_shift1 (andor_full ih)
  | shift h t h' ih ih' => exact pre_shift ih t (andor_full ih') (syn_ne h' (by simp) (by simp))
  | andor1 h ih => exact pre_andor1 ih
  | andor h t h' ih ih' => exact pre_andor ih t ih' (syn_ne h' (by simp) (by simp))
  | bnot h ih => exact full_bnot ih (syn_ne h (by simp) (by simp))
  | opnd h ih => exact full_opnd ih (h.starts (by simp) (by simp))
  | lam hp h ih => exact full_lam hp ih (syn_ne h (by decide) (by decide))
  | nil => exact full_nil
  | num => exact full_num
  | str => exact full_str
  | par h ih => exact full_par ih (syn_ne h (by decide) (by decide))
  | signed hs => exact full_signed hs
  | plus h hc ih => exact full_plus ih (h.starts (by decide) (by decide)) hc
  | minus h hc ih => exact full_minus ih (h.starts (by decide) (by decide)) hc
  | ref h ih => exact full_ref ih (h.starts (by decide) (by decide))
  | id => exact ref_id
  | field h ih => exact ref_field ih
  | index h h' ih ih' => exact ref_index ih ih' (syn_ne h' (by decide) (by decide))
  | call0 h ih => exact ref_call (us := []) ih args_none
  | call h h' ih ih' => exact ref_call ih (args_some ih')
  | arg1 h ih => exact pre_arg1 ih (h.starts (by decide) (by decide))
  | arg h h' ih ih' => exact pre_arg ih ih' (syn_ne h' (by decide) (by decide))
  | ret0 => exact stat_ret0
  | ret h ih => exact stat_ret ih (h.starts (by decide) (by decide))
  | assign h hc h' ih ih' => exact stat_assign ih (h.starts (by decide) (by decide)) hc ih' (syn_ne h' (by decide) (by decide))
  | run h ih => exact stat_run ih (h.starts (by decide) (by decide))
  | simple h ih => exact stat_simple ih (h.starts (by decide) (by decide))
  | decl => exact stat_decl
  | init h ih => exact stat_init ih (syn_ne h (by decide) (by decide))
  | func hp h ih => exact stat_func (doc := []) hp ih (h.starts (by decide) (by decide)) (Or.inl rfl)
  | @funcDoc u v w d f ps ts xs b hp h ih => exact stat_func (doc := [(.string, d)]) hp ih (h.starts (by decide) (by decide)) (Or.inr ⟨d, rfl⟩)
  | ifs h h' ih ih' => exact stat_ifs ih (syn_ne h (by decide) (by decide)) ih'
  | ite h h' hb ho h'' ih ih' ih'' => exact stat_ite ih (syn_ne h (by decide) (by decide)) ih' hb ho ih''
  | while_ h h' ih ih' => exact stat_while ih (syn_ne h (by decide) (by decide)) ih'
  | for_ hi hbi hc hu hbu hs ihi ihc ihu ihs =>
    exact stat_for ihi (syn_ne hi (by decide) (by decide)) hbi (simple_open hi rfl) ihc (syn_ne hc (by decide) (by decide)) ihu (syn_ne hu (by decide) (by decide)) hbu
      (simple_open hu rfl) ihs
  | sub h ih => exact sub_stat ih (h.starts (by decide) (by decide))
  | subBlk h ih => exact sub_blk ih (h.starts (by decide) (by decide))
  | sub0 => exact sub_none
  | stats0 => exact stats_nil
  | stats h h' hb ih ih' => exact stats_cons ih (h.starts (by decide) (by decide)) ih' (stats_shape h' rfl) hb
  | blk h ih =>
    rcases stats_shape h rfl with ⟨rfl, rfl⟩ | hs
    · exact blk0
    · exact blk ih hs

theorem bind_ok {α β : Type} {x : M α} {f : α → M β} {p p' : P} {a : α} (h : x p = .ok (some (a, p'))) : (x >>= f) p = f a p' := by
  show (match x p with
    | .ok (some (a, p')) => f a p'
    | .ok none => .ok none
    | .ub => .ub
    | .abort => .abort
    | .hang => .hang) = _
  rw [h]

/-- The state in which the statements of a script are compiled. -/
def start (pre : List Bytes) : CS := ⟨1, [[]], preload pre⟩

/-- A script: its tokens, without statement ends, are those of a list of statements and an end of file. -/
theorem script_ok {pre : List Bytes} {toks : List Tok} {fin : Bool} {ts : List T2} {v : Bytes} {b : Ast} {o : Out} (hs : Syn .stats ts b) (hts : ts ≠ [])
    (hb : complete b = true) (ht : (toks.filter (fun t => decide (t.type ≠ .statend))).map (fun t => (t.type, t.value)) = ts ++ [(.eof, v)])
    (ho : comp b .val (start pre) = some o) :
    ∃ p : P, p.chunks.map plain = ⟨0, o.code ++ [.exit, .op 1], none⟩ :: o.news ∧ p.symstack = o.cs.symstack ∧ p.strings = o.cs.strings ∧ p.tok.type = .eof ∧
      ∃ n, ∀ m, n ≤ m → script m pre toks fin = .ok (some p) := by
  have hst : Starts (heads .stat) ts := by
    rcases stats_shape hs rfl with ⟨e, _⟩ | h
    · exact absurd e hts
    · exact h
  have hd := @dropWhile_filter toks
  unfold script
  cases hw : toks.dropWhile (fun t => decide (t.type = .statend)) with
  | nil =>
    rw [hw] at hd
    simp only at hd
    rw [hd] at ht
    simp at ht
  | cons t r =>
    rw [hw] at hd
    simp only at hd
    rw [hd.2] at ht
    have hv : View (⟨t, r, fin, 0, [], [], [], preload pre⟩ : P) (ts ++ [(.eof, v)]) := ⟨hd.1, ht.symm⟩
    have hte : t.type ≠ .eof := fun e => hst.ne_close hv (Or.inl e)
    have htb : t.type ≠ .blockclose := fun e => hst.ne_close hv (Or.inr e)
    have hv1 : View (inChunk none ⟨t, r, fin, 0, [], [], [[]], preload pre⟩) (ts ++ [(.eof, v)]) := hv
    have hc := claim hs
    have := hc (inChunk none ⟨t, r, fin, 0, [], [], [[]], preload pre⟩) [(.eof, v)] o
      (fun _ p => View p [(.eof, v)] ∧ Go (inChunk none ⟨t, r, fin, 0, [], [], [[]], preload pre⟩) p o) hv1 (Or.inr ⟨hb, v, [], rfl⟩) (List.cons_ne_nil _ _) ho
      fun r p hv g => ⟨hv, g⟩
    obtain ⟨r1, p1, ⟨n, e⟩, hv2, g⟩ := statlist_of this hte htb
    have g2 := (g.emitted (l := .exit)).emitted (l := .op 1)
    refine ⟨{ emitted (.op 1) (emitted .exit p1) with code := [], chunks := p1.chunks.modify 0 (fun c => { c with code := (emitted (.op 1) (emitted .exit p1)).code }) }, ?_,
      congrArg CS.symstack g2.cs, congrArg CS.strings g2.cs, View.type hv2, n, fun m hm => ?_⟩
    · have hch : p1.chunks.map plain = [] ++ ⟨0, [], none⟩ :: o.news := g.chunks
      have hcode : (emitted (.op 1) (emitted .exit p1)).code.map Prod.fst = o.code ++ [.exit, .op 1] := by
        have := g2.code
        simpa [inChunk] using this
      have := modify_plain (fun c => { c with code := (emitted (.op 1) (emitted .exit p1)).code }) p1.chunks [] o.news _ _ hch (fun _ => rfl)
      rw [hcode] at this
      exact this
    · simp only
      rw [if_neg hte]
      have key := bind_ok (f := fun _ => emit .exit >>= fun _ => emit (.op 1) >>= fun _ => chunkPop (0, [])) (e m hm)
      have key2 : (symtPush >>= fun _ => chunkPush none >>= fun oldc => parse m .statlist >>= fun _ => emit .exit >>= fun _ => emit (.op 1) >>= fun _ => chunkPop oldc)
          (⟨t, r, fin, 0, [], [], [], preload pre⟩ : P) = (emit .exit >>= fun _ => emit (.op 1) >>= fun _ => chunkPop (0, [])) p1 := key
      rw [key2]
      rfl

end Buzz.Comp
