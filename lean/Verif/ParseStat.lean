import Verif.ParseExpr

/-
The parsing functions for statements, and all of them together.
-/
namespace Buzz.Accept

open Buzz.Msg Buzz.Lex Buzz.Parser Buzz.Comp Buzz.Lang Buzz.Debug
open Buzz.VM (Bin Un)

section
variable {R : NT → M Ret} {n : Nat} {p : P} {ts : List T2}

theorem onto_at {p p' : P} {c : CS} (h : At p ts) (o : Onto p p' c) (hc : c.symstack ≠ []) : At p' ts :=
  h.alike o.tok o.toks (by rw [← o.cs] at hc; exact hc)

theorem addParam_ne {c : CS} (x : Bytes) (h : c.symstack ≠ []) : (addParam c x).symstack ≠ [] := by
  intro k
  have := addParam_len x c
  rw [k] at this
  exact h (List.eq_nil_of_length_eq_zero this.symm)

theorem wp_param {β : Type} {f : Unit → M β} {Q : β → P → Prop} (h : At p ts)
    (k : ∀ p', At p' ts → p'.tok = p.tok → cs p' = addParam (cs p) p.tok.value → Wp (f ()) p' Q) : Wp (param >>= f) p Q := by
  obtain ⟨p', e, o⟩ := addParam_step p.tok.value p
  refine wp_step (x := param) (a := ()) (p' := p') ?_ o.fin (k p' (onto_at h o (addParam_ne _ h.syms)) o.tok o.cs)
  rw [← e, ← local_match]
  rfl

theorem wp_addSelf {β : Type} {f : Unit → M β} {Q : β → P → Prop} (h : At p ts)
    (k : ∀ p', At p' ts → cs p' = addParam (cs p) selfName → Wp (f ()) p' Q) : Wp (addSelf >>= f) p Q := by
  obtain ⟨p', e, o⟩ := addParam_step selfName p
  refine wp_step (x := addSelf) (a := ()) (p' := p') ?_ o.fin (k p' (onto_at h o (addParam_ne _ h.syms)) o.cs)
  rw [← e, ← local_match]
  rfl

theorem wp_idlistRest (ih : Sound R n) (h : At p ts) (hn : need .idlistRest ts < n + 1) : Wp (body R .idlistRest) p (Post .idlistRest ts p) := by
  simp only [body]
  refine wp_tok (wp_ite (fun e => ?_) (fun e => wp_done ⟨[], ts, [], rfl, h, rfl, Or.inl ⟨rfl, rfl⟩⟩))
  refine wp_fetch h (by rw [e]; decide) fun p1 r hts h1 hc _ => ?_
  rw [e] at hts
  subst hts
  refine wp_expect fun e1 => ?_
  refine wp_param h1 fun p2 h2 ht2 hc2 => ?_
  refine wp_fetch h2 (by rw [ht2, e1]; decide) fun p3 r3 hr h3 hc3 _ => ?_
  rw [ht2, e1] at hr
  subst hr
  refine wp_last ih .idlistRest h3 (by simp) (by fuel) fun _ p4 q => ?_
  obtain ⟨us, rest, xs, rfl, h4, hc4, q⟩ := q
  refine ⟨(.listsep, p.tok.value) :: (.id, p1.tok.value) :: us, rest, p1.tok.value :: xs, rfl, h4, ?_, Or.inr ⟨_, _, rfl, ?_, by simp⟩⟩
  · rw [hc4, hc3, hc2, hc]
    rfl
  · rcases q with ⟨rfl, rfl⟩ | ⟨v, us', rfl, hi, hx⟩
    · exact .one
    · exact .more hi hx

theorem wp_idlist (ih : Sound R n) (h : At p ts) (hn : need .idlist ts < n + 1) : Wp (body R .idlist) p (Post .idlist ts p) := by
  simp only [body]
  refine wp_tok (wp_ite (fun e => wp_done ⟨[], ts, [], rfl, h, .nil, rfl⟩) (fun e => ?_))
  refine wp_expect fun e1 => ?_
  refine wp_param h fun p2 h2 ht2 hc2 => ?_
  refine wp_fetch h2 (by rw [ht2, e1]; decide) fun p3 r3 hr h3 hc3 _ => ?_
  rw [ht2, e1] at hr
  subst hr
  refine wp_last ih .idlistRest h3 (by simp) (by fuel) fun _ p4 q => ?_
  obtain ⟨us, rest, xs, rfl, h4, hc4, q⟩ := q
  refine ⟨(.id, p.tok.value) :: us, rest, p.tok.value :: xs, rfl, h4, ?_, ?_⟩
  · rcases q with ⟨rfl, rfl⟩ | ⟨v, us', rfl, hi, hx⟩
    · exact .one
    · exact .more hi hx
  · rw [hc4, hc3, hc2]
    rfl

theorem cons_of_ne {α : Type} {l : List α} (h : l ≠ []) : ∃ a r, l = a :: r := by
  cases l with
  | nil => exact absurd rfl h
  | cons a r => exact ⟨a, r, rfl⟩

theorem wp_closeBlock {β : Type} {m : Nat} {f : Unit → M β} {Q : β → P → Prop} (h : At p ts)
    (k : ∀ p', At p' ts → outer (cs p') = outer (cs p) → Wp (f ()) p' Q) : Wp (closeBlock m >>= f) p Q := by
  refine wp_bind ?_
  unfold closeBlock
  have tl : ∀ p1 : P, At p1 ts → outer (cs p1) = outer (cs p) →
      Wp (upd (fun p => { p with symstack := onTop (fun t => t.filter (fun e => decide (e.2.pos < m))) p.symstack })) p1 (fun a p1 => Wp (f a) p1 Q) := by
    intro p1 h1 hc
    refine wp_of rfl rfl (k _ (h1.alike rfl rfl ?_) ?_)
    · intro e
      have := onTop_length (fun t => t.filter (fun e => decide (e.2.pos < m))) p1.symstack
      simp only at e
      rw [e] at this
      exact h1.syms (List.eq_nil_of_length_eq_zero this.symm)
    · rw [← hc]
      obtain ⟨t, r, e⟩ := cons_of_ne h1.syms
      simp only [outer, cs, e, onTop, List.tail_cons]
  refine wp_ask (wp_ite (fun _ => wp_emit (tl _ h rfl)) (fun _ => tl _ h rfl))

theorem outer_syms {c c' : CS} (h : outer c = outer c') : c.symstack.tail = c'.symstack.tail := congrArg CS.symstack h

/-- Statements in braces, from the first one on. -/
theorem wp_stats {β : Type} {m : Nat} {f : Unit → M β} {Q : β → P → Prop} (ih : Sound R n) (h : At p ts) (hn : need .statlist ts < n)
    (k : ∀ us v r p' b c, ts = us ++ (.blockclose, v) :: r → Syn .stats us b → Did b (cs p) c → At p' r → outer (cs p') = outer c → Wp (f ()) p' Q) :
    Wp (R .statlist >>= fun _ => expect .blockclose >>= fun _ => Parser.fetch >>= fun _ => closeBlock m >>= f) p Q := by
  refine wp_call ih .statlist h (by simp) hn fun _ p1 q => ?_
  obtain ⟨us, rest, b, rfl, h1, hs, hd, _⟩ := q
  refine wp_take h1 (by decide) fun p2 v r hr h2 hc _ => ?_
  subst hr
  refine wp_closeBlock h2 fun p3 h3 ho => ?_
  exact k us v r p3 b _ rfl hs hd h3 (by rw [ho, hc])

theorem wp_block {push : Bool} (ih : Sound R n) (h : At p ts) (hn : need (.block push) ts < n + 1) : Wp (body R (.block push)) p (Post (.block push) ts p) := by
  simp only [body]
  refine wp_take h (by decide) fun p1 u r hts h1 hc1 _ => ?_
  subst hts
  refine wp_tok (wp_ite (fun e => ?_) (fun e => ?_))
  · refine wp_fetch h1 (by rw [e]; decide) fun p2 r2 hr h2 hc2 _ => wp_done ?_
    rw [e] at hr
    subst hr
    have hs : Syn .blk ((.blockopen, u) :: ([] ++ [(.blockclose, p1.tok.value)])) .skip := .blk .stats0
    cases push with
    | true => exact ⟨_, r2, .skip, rfl, h2, hs, by
        rw [hc2, hc1]
        exact Did.block (did_skip _)⟩
    | false => exact ⟨_, r2, .skip, _, rfl, h2, hs, did_skip _, by rw [hc2, hc1]⟩
  · cases push with
    | true =>
      simp only [if_true]
      have tl : ∀ p2, At p2 r → cs p2 = inner (cs p) → Wp (ask (fun p => (p.symstack.headD []).length) >>= fun m => R .statlist >>= fun _ => expect .blockclose >>= fun _ =>
          Parser.fetch >>= fun _ => closeBlock m >>= fun _ => symtPop >>= fun _ => done) p2 (Post (.block true) ((.blockopen, u) :: r) p) := by
        intro p2 h2 hc2
        refine wp_ask (wp_stats ih h2 (by fuel) fun us v r' p3 b c hr hs hd h3 ho => ?_)
        subst hr
        refine wp_step (a := ()) (p' := { p3 with symstack := p3.symstack.tail }) rfl rfl (wp_done ?_)
        refine ⟨(.blockopen, u) :: (us ++ [(.blockclose, v)]), r', b, by simp, h3.alike rfl rfl ?_, .blk hs, ?_⟩
        · show p3.symstack.tail ≠ []
          rw [show p3.symstack.tail = c.symstack.tail from outer_syms ho]
          have l1 := hd.syms
          rw [hc2] at l1
          have l2 : (inner (cs p)).symstack.length = p.symstack.length + 1 := rfl
          have l3 := List.length_pos_iff.mpr h.syms
          intro e
          have := congrArg List.length e
          rw [List.length_tail] at this
          simp only [List.length_nil] at this
          omega
        · show Did (.block b) (cs p) (outer (cs p3))
          rw [ho]
          rw [hc2] at hd
          exact Did.block hd
      refine wp_ask (wp_ite (fun e1 => ?_) (fun e1 => ?_))
      · refine wp_step (a := ()) (x := symtPush) rfl rfl (tl _ (h1.alike rfl rfl (by simp)) ?_)
        show (⟨p1.labels, [] :: p1.symstack, p1.strings⟩ : CS) = _
        rw [← hc1]
        unfold inner
        rw [if_pos (show (cs p1).symstack.length = 1 from e1)]
        rfl
      · refine wp_step (a := ()) (x := symtClone) rfl rfl (tl _ (h1.alike rfl rfl (by simp)) ?_)
        show (⟨p1.labels, p1.symstack.headD [] :: p1.symstack, p1.strings⟩ : CS) = _
        rw [← hc1]
        unfold inner
        rw [if_neg (show ¬ (cs p1).symstack.length = 1 from e1)]
        rfl
    | false =>
      simp only [Bool.false_eq_true, if_false]
      refine wp_ask (wp_stats ih h1 (by fuel) fun us v r' p3 b c hr hs hd h3 ho => wp_done ?_)
      subst hr
      rw [hc1] at hd
      exact ⟨(.blockopen, u) :: (us ++ [(.blockclose, v)]), r', b, c, by simp, h3, .blk hs, hd, ho⟩

theorem scope_ne {c : CS} : (scope c).symstack ≠ [] := by
  intro k
  have := scope_len c
  rw [k] at this
  simp at this

/-- The body of a function and its end. -/
theorem wp_fun_end {at_ : Nat × List (Ln × Pos)} {Q : Ret → P → Prop} (ih : Sound R n) (h : At p ts) (hn : need (.block false) ts < n) (hl : p.symstack.length > 1)
    (k : ∀ us r p' b c, ts = us ++ r → Syn .blk us b → Did b (cs p) c → At p' r → cs p' = outer c → Q ⟨0, 0, false⟩ p') :
    Wp (R (.block false) >>= fun _ => emit (.op 5) >>= fun _ => symtPop >>= fun _ => chunkPop at_ >>= fun _ => done) p Q := by
  refine wp_call ih (.block false) h (by simp) hn fun _ p1 q => ?_
  obtain ⟨us, rest, b, c, rfl, h1, hs, hd, ho⟩ := q
  refine wp_emit (wp_step (a := ()) (x := symtPop) rfl rfl (wp_step (a := ()) (x := chunkPop at_) rfl rfl (wp_done ?_)))
  refine k us rest _ b c rfl hs hd (h1.alike rfl rfl ?_) (by rw [← ho]; rfl)
  show p1.symstack.tail ≠ []
  rw [show p1.symstack.tail = c.symstack.tail from outer_syms ho]
  have l1 : c.symstack.length = p.symstack.length := hd.syms
  intro e
  have := congrArg List.length e
  rw [List.length_tail] at this
  simp only [List.length_nil] at this
  omega

theorem wp_lambda (ih : Sound R n) (h : At p ts) (hn : need .lambda ts < n + 1) : Wp (body R .lambda) p (Post .lambda ts p) := by
  simp only [body]
  refine wp_take h (by decide) fun p1 u r hts h1 hc1 _ => ?_
  subst hts
  refine wp_step (a := (p1.chunks.length, p1.code)) (x := chunkPush none) rfl rfl ?_
  refine wp_take (ts := r) (p := inChunk none p1) h1 (by decide) fun p2 v r2 hr h2 hc2 _ => ?_
  subst hr
  have hc2' : cs p2 = lab 1 (cs p) := by rw [hc2, ← hc1]; rfl
  have tl : ∀ p3, At p3 r2 → cs p3 = scope (lab 1 (cs p)) → Wp (R .idlist >>= fun _ => expect .parclose >>= fun _ => Parser.fetch >>= fun _ => R (.block false) >>= fun _ =>
      emit (.op 5) >>= fun _ => symtPop >>= fun _ => chunkPop (p1.chunks.length, p1.code) >>= fun _ => done) p3 (Post .lambda ((.fun_, u) :: (.paropen, v) :: r2) p) := by
    intro p3 h3 hc3
    refine wp_call ih .idlist h3 (by simp) (by fuel) fun _ p4 q => ?_
    obtain ⟨us, rest, xs, rfl, h4, hi, hc4⟩ := q
    refine wp_take h4 (by decide) fun p5 w r5 hr h5 hc5 _ => ?_
    subst hr
    have hl : p5.symstack.length > 1 := by
      show (cs p5).symstack.length > 1
      rw [hc5, hc4, hc3, params_len, scope_len]
      have := List.length_pos_iff.mpr h.syms
      show p.symstack.length + 1 > 1
      omega
    refine wp_fun_end ih h5 (by fuel) hl fun us' r' p6 b c hr hs hd h6 hc6 => ?_
    subst hr
    refine ⟨(.fun_, u) :: (.paropen, v) :: (us ++ (.parclose, w) :: us'), r', .lam xs b, by simp, h6, .lam hi hs, ?_, trivial⟩
    rw [hc6]
    rw [hc5, hc4, hc3] at hd
    exact hd.lam
  refine wp_ask (wp_ite (fun e => ?_) (fun e => ?_))
  · refine wp_step (a := ()) (x := symtPush) rfl rfl ?_
    refine wp_addSelf (ts := r2) (h2.alike rfl rfl (by simp)) fun p3 h3 hc3 => tl p3 h3 ?_
    rw [hc3, ← hc2']
    unfold scope
    rw [if_pos (show (cs p2).symstack.length = 1 from e)]
    rfl
  · refine wp_step (a := ()) (x := symtClone) rfl rfl (tl _ (h2.alike rfl rfl (by simp)) ?_)
    rw [← hc2']
    unfold scope
    rw [if_neg (show ¬ (cs p2).symstack.length = 1 from e)]
    rfl

theorem closed_of {p' : P} {a : Ast} (h1 : bare a = false) (h2 : openIf a = false) : Closed p' a := ⟨by simp [h1], by simp [h2]⟩

theorem wp_fun_ (ih : Sound R n) (h : At p ts) (hn : need .fun_ ts < n + 1) : Wp (body R .fun_) p (Post .fun_ ts p) := by
  simp only [body]
  refine wp_take h (by decide) fun p1 u r hts h1 hc1 _ => ?_
  subst hts
  refine wp_expect fun e1 => wp_tok (wp_ask (wp_ite (fun _ => wp_fail) (fun hl => ?_)))
  have hl1 : p1.symstack.length = 1 := by
    have := List.length_pos_iff.mpr h1.syms
    omega
  refine wp_ask ?_
  have tl : ∀ p2 : P, At p2 r → cs p2 = known p1.tok.value (cs p) → p2.tok = p1.tok → Wp (ask (fun q => lookup p1.tok.value q.symstack) >>= fun s =>
      chunkPush (s.map (fun s => (p1.tok.value, s.gen))) >>= fun oldc => Parser.fetch >>= fun _ => expect .paropen >>= fun _ => Parser.fetch >>= fun _ => symtPush >>= fun _ =>
      addSelf >>= fun _ => R .idlist >>= fun _ => expect .parclose >>= fun _ => Parser.fetch >>= fun _ => tok >>= fun t =>
      if t.type = .string then Parser.fetch >>= fun _ => R (.block false) >>= fun _ => emit (.op 5) >>= fun _ => symtPop >>= fun _ => chunkPop oldc >>= fun _ => done
      else R (.block false) >>= fun _ => emit (.op 5) >>= fun _ => symtPop >>= fun _ => chunkPop oldc >>= fun _ => done) p2
        (Post .fun_ ((.fun_, u) :: r) p) := by
    intro p2 h2 hc2 ht2
    refine wp_ask ?_
    refine wp_step (x := chunkPush _) rfl rfl ?_
    refine wp_fetch (ts := r) (p := inChunk _ p2) h2 (show p2.tok.type ≠ .eof by rw [ht2, e1]; decide) fun p3 r3 hr h3 hc3 _ => ?_
    replace hr : r = (p2.tok.type, p2.tok.value) :: r3 := hr
    rw [ht2, e1] at hr
    subst hr
    refine wp_take h3 (by decide) fun p4 v r4 hr h4 hc4 _ => ?_
    subst hr
    refine wp_step (a := ()) (x := symtPush) rfl rfl ?_
    refine wp_addSelf (ts := r4) (h4.alike rfl rfl (by simp)) fun p5 h5 hc5 => ?_
    have hs4 : cs p4 = lab 1 (known p1.tok.value (cs p)) := by
      rw [hc4, hc3, ← hc2]
      rfl
    have hlen : (known p1.tok.value (cs p)).symstack.length = 1 := by
      rw [known_len, ← hc1]
      exact hl1
    have hs5 : cs p5 = scope (lab 1 (known p1.tok.value (cs p))) := by
      rw [hc5, ← hs4]
      unfold scope
      rw [if_pos (by rw [hs4]; exact hlen)]
      rfl
    refine wp_call ih .idlist h5 (by simp) (by fuel) fun _ p6 q => ?_
    obtain ⟨us, rest, xs, rfl, h6, hi, hc6⟩ := q
    refine wp_take h6 (by decide) fun p7 w r7 hr h7 hc7 _ => ?_
    subst hr
    have fin : ∀ (doc : List T2) p8 r8, r7 = doc ++ r8 → (∀ us' b, Syn .blk us' b → Syn .stat ((.fun_, u) :: (.id, p1.tok.value) :: (.paropen, v) ::
        (us ++ (.parclose, w) :: (doc ++ us'))) (.func p1.tok.value xs b)) → At p8 r8 → cs p8 = cs p7 → 
        Wp (R (.block false) >>= fun _ => emit (.op 5) >>= fun _ => symtPop >>= fun _ => chunkPop (p2.chunks.length, p2.code) >>= fun _ => done) p8
          (Post .fun_ ((.fun_, u) :: (.id, p1.tok.value) :: (.paropen, v) :: (us ++ (.parclose, w) :: r7)) p) := by
      intro doc p8 r8 hr hsyn h8 hc8
      subst hr
      have hl8 : p8.symstack.length > 1 := by
        show (cs p8).symstack.length > 1
        rw [hc8, hc7, hc6, hs5, params_len, scope_len]
        show (known p1.tok.value (cs p)).symstack.length + 1 > 1
        omega
      refine wp_fun_end ih h8 (by fuel) hl8 fun us' r' p9 b c hr hs hd h9 hc9 => ?_
      subst hr
      refine ⟨_, r', _, ?_, h9, hsyn us' b hs, ?_, closed_of rfl rfl⟩
      · simp
      · rw [hc9]
        rw [hc8, hc7, hc6, hs5] at hd
        refine Did.func ?_ hd
        rw [← hc1]
        exact hl
    refine wp_tok (wp_ite (fun e7 => ?_) (fun e7 => ?_))
    · refine wp_fetch h7 (by rw [e7]; decide) fun p8 r8 hr h8 hc8 _ => ?_
      rw [e7] at hr
      exact fin [(.string, p7.tok.value)] p8 r8 hr (fun us' b hs => .funcDoc hi hs) h8 hc8
    · exact fin [] p7 r7 rfl (fun us' b hs => .func hi hs) h7 rfl
  refine wp_ite (fun e2 => ?_) (fun e2 => ?_)
  · obtain ⟨p', e, o, _⟩ := declared (x := p1.tok.value) (p := p1) h1.syms
    rw [if_pos (show (cs p1).symstack.length = 1 from hl1)] at o
    refine wp_step e o.fin (tl p' (onto_at h1 o ?_) ?_ o.tok)
    · intro k
      have l1 := addGlobal_len p1.tok.value (cs p1)
      rw [k] at l1
      exact h1.syms (List.eq_nil_of_length_eq_zero l1.symm)
    · rw [o.cs, ← hc1]
      unfold known
      rw [if_pos (show lookup p1.tok.value (cs p1).symstack = none from e2)]
  · refine tl p1 h1 ?_ rfl
    rw [← hc1]
    unfold known
    rw [if_neg (show ¬ lookup p1.tok.value (cs p1).symstack = none from e2)]

theorem declAs_ne {x : Bytes} {c : CS} (h : c.symstack ≠ []) : (declAs x c).symstack ≠ [] := by
  intro k
  have : (declAs x c).symstack.length = c.symstack.length := by
    unfold declAs
    split
    · exact addGlobal_len x c
    · exact addLocal_len x c
  rw [k] at this
  exact h (List.eq_nil_of_length_eq_zero this.symm)

theorem wp_var (ih : Sound R n) (h : At p ts) (hn : need .var ts < n + 1) : Wp (body R .var) p (Post .var ts p) := by
  simp only [body]
  refine wp_take h (by decide) fun p1 u r hts h1 hc1 _ => ?_
  subst hts
  refine wp_expect fun e1 => wp_tok (wp_ask ?_)
  obtain ⟨p2, e, o, _, hs⟩ := declared (x := p1.tok.value) (p := p1) h1.syms
  have o' : Onto p1 p2 (declAs p1.tok.value (cs p1)) := o
  have h2 : At p2 r := onto_at h1 o' (declAs_ne h1.syms)
  have hc2 : cs p2 = declAs p1.tok.value (cs p) := by rw [o'.cs, hc1]
  have ht2 : p2.tok = p1.tok := o.tok
  generalize (if (cs p1).symstack.length = 1 then (⟨(stringAdd (cs p1).strings p1.tok.value).2, true, _⟩ : Sym) else ⟨(cs p1).top.length, false, 0⟩) = s at hs
  have main : isLocal p1.tok.value (cs p) = false → ∀ p2' : P, At p2' r → cs p2' = declAs p1.tok.value (cs p) → p2'.tok = p1.tok → ∀ s : Sym,
      Wp (Parser.fetch >>= fun _ => tok >>= fun t =>
        if t.type = .assign then
          if s.global = true then Parser.fetch >>= fun _ => R .expr >>= fun _ => if s.global = true then emit (.op 29) >>= fun _ => done else emit (.num 42 s.pos) >>= fun _ => done
          else emit (.op 2) >>= fun _ => emit (.num 42 s.pos) >>= fun _ => Parser.fetch >>= fun _ => R .expr >>= fun _ =>
            if s.global = true then emit (.op 29) >>= fun _ => done else emit (.num 42 s.pos) >>= fun _ => done
        else emit (.op 2) >>= fun _ => if s.global = true then emit (.op 29) >>= fun _ => done else emit (.num 42 s.pos) >>= fun _ => done) p2'
      (Post .var ((.var, u) :: r) p) := by
    intro hloc p2' h2' hc2' ht2' s
    refine wp_fetch h2' (by rw [ht2', e1]; decide) fun p3 r3 hr h3 hc3 _ => ?_
    rw [ht2', e1] at hr
    subst hr
    refine wp_tok (wp_ite (fun e3 => ?_) (fun e3 => ?_))
    · have ex : ∀ p4 : P, At p4 r3 → cs p4 = cs p3 → p4.tok = p3.tok → Wp (Parser.fetch >>= fun _ => R .expr >>= fun _ =>
          if s.global = true then emit (.op 29) >>= fun _ => done else emit (.num 42 s.pos) >>= fun _ => done) p4 (Post .var ((.var, u) :: (.id, p1.tok.value) :: r3) p) := by
        intro p4 h4 hc4 ht4
        refine wp_fetch h4 (by rw [ht4, e3]; decide) fun p5 r5 hr h5 hc5 _ => ?_
        rw [ht4, e3] at hr
        subst hr
        refine wp_call ih .expr h5 (by simp) (by fuel) fun _ p6 q => ?_
        obtain ⟨us, rest, a, rfl, h6, hs, hd, _⟩ := q
        have fin : Post .var ((.var, u) :: (.id, p1.tok.value) :: (.assign, p3.tok.value) :: (us ++ rest)) p ⟨0, 0, false⟩ p6 := by
          refine ⟨(.var, u) :: (.id, p1.tok.value) :: (.assign, p3.tok.value) :: us, rest, _, rfl, h6, .init hs, did_init hloc ?_, closed_of rfl rfl⟩
          rw [hc5, hc4, hc3, hc2'] at hd
          exact hd
        exact wp_ite (fun _ => wp_emit (wp_done fin)) (fun _ => wp_emit (wp_done fin))
      exact wp_ite (fun _ => ex p3 h3 rfl rfl) (fun _ => wp_emit (wp_emit (ex _ h3 rfl rfl)))
    · have fin : Post .var ((.var, u) :: (.id, p1.tok.value) :: r3) p ⟨0, 0, false⟩ p3 := by
        refine ⟨[(.var, u), (.id, p1.tok.value)], r3, _, rfl, h3, .decl, ?_, closed_of rfl rfl⟩
        rw [hc3, hc2']
        exact did_decl hloc
      exact wp_emit (wp_ite (fun _ => wp_emit (wp_done fin)) (fun _ => wp_emit (wp_done fin)))
  have go : isLocal p1.tok.value (cs p) = false → Wp (symAuto p1.tok.value >>= fun _ => ask (fun q => lookup p1.tok.value q.symstack) >>= fun s => match s with
      | none => fun _ => .ub
      | some s => if s.global = true then emit (.num 37 s.pos) >>= fun _ => Parser.fetch >>= fun _ => tok >>= fun t =>
          if t.type = .assign then
            if s.global = true then Parser.fetch >>= fun _ => R .expr >>= fun _ => if s.global = true then emit (.op 29) >>= fun _ => done else emit (.num 42 s.pos) >>= fun _ => done
            else emit (.op 2) >>= fun _ => emit (.num 42 s.pos) >>= fun _ => Parser.fetch >>= fun _ => R .expr >>= fun _ =>
              if s.global = true then emit (.op 29) >>= fun _ => done else emit (.num 42 s.pos) >>= fun _ => done
          else emit (.op 2) >>= fun _ => if s.global = true then emit (.op 29) >>= fun _ => done else emit (.num 42 s.pos) >>= fun _ => done
        else Parser.fetch >>= fun _ => tok >>= fun t =>
          if t.type = .assign then
            if s.global = true then Parser.fetch >>= fun _ => R .expr >>= fun _ => if s.global = true then emit (.op 29) >>= fun _ => done else emit (.num 42 s.pos) >>= fun _ => done
            else emit (.op 2) >>= fun _ => emit (.num 42 s.pos) >>= fun _ => Parser.fetch >>= fun _ => R .expr >>= fun _ =>
              if s.global = true then emit (.op 29) >>= fun _ => done else emit (.num 42 s.pos) >>= fun _ => done
          else emit (.op 2) >>= fun _ => if s.global = true then emit (.op 29) >>= fun _ => done else emit (.num 42 s.pos) >>= fun _ => done) p1
      (Post .var ((.var, u) :: r) p) := by
    intro hloc
    refine wp_step e o.fin (wp_ask ?_)
    rw [hs]
    exact wp_ite (fun _ => wp_emit (main hloc (emitted _ p2) h2 hc2 ht2 s)) (fun _ => main hloc _ h2 hc2 ht2 s)
  have hloc : isLocal p1.tok.value (cs p) = (match lookup p1.tok.value p1.symstack with | some s => !s.global | none => false) := by
    rw [← hc1]
    rfl
  cases hx : lookup p1.tok.value p1.symstack with
  | none => exact go (by rw [hloc, hx])
  | some s =>
    obtain ⟨a, b, c⟩ := s
    cases b with
    | false => exact wp_fail
    | true => exact go (by rw [hloc, hx]; rfl)

theorem wp_command (ih : Sound R n) (h : At p ts) (hn : need .command ts < n + 1) : Wp (body R .command) p (Post .command ts p) := by
  simp only [body]
  refine wp_tok (wp_ite (fun e => ?_) (fun e => ?_))
  · refine wp_fetch h (by rw [e]; decide) fun p1 r hts h1 hc1 _ => ?_
    rw [e] at hts
    subst hts
    refine wp_tok (wp_ite (fun e1 => ?_) (fun e1 => ?_))
    · refine wp_emit (wp_done ?_)
      refine ⟨[(.return_, p.tok.value)], r, .ret0, rfl, h1, .ret0, ⟨_, rfl, hc1.symm⟩, fun _ => ?_, by simp [openIf]⟩
      rcases e1 with e1 | e1
      · exact absurd e1 h1.view.1
      · exact e1
    · refine wp_call ih .cond h1 (by simp) (by fuel) fun _ p2 q => wp_emit (wp_done ?_)
      obtain ⟨us, rest, a, rfl, h2, hs, hd, _⟩ := q
      rw [hc1] at hd
      exact ⟨(.return_, p.tok.value) :: us, rest, .ret a, rfl, h2, .ret hs, hd.ret, closed_of rfl rfl⟩
  · refine wp_call ih (.idref true) h (by simp) (by fuel) fun r p1 q => ?_
    obtain ⟨us, rest, a, rfl, h1, hs, hd, hk, hl⟩ := q.len (by decide) (by decide)
    refine wp_tok (wp_ite (fun e1 => wp_ite (fun _ => wp_fail) (fun e2 => ?_)) (fun e1 => wp_ite (fun e2 => ?_) (fun _ => wp_failHere)))
    · have tl : ∀ p2 : P, At p2 rest → cs p2 = cs p1 → p2.tok = p1.tok → Wp (Parser.fetch >>= fun _ => R .expr >>= fun _ =>
          if r.glob = true then emit (.op 29) >>= fun _ => done else if 0 ≤ r.info then emit (.num 42 r.info) >>= fun _ => done
          else if r.info = -3 then emit (.op 31) >>= fun _ => done else done) p2 (Post .command (us ++ rest) p) := by
        intro p2 h2 hc2 ht2
        refine wp_fetch h2 (by rw [ht2, e1]; decide) fun p3 r3 hr h3 hc3 _ => ?_
        rw [ht2, e1] at hr
        subst hr
        refine wp_call ih .expr h3 (by simp) (by fuel) fun _ p4 q => ?_
        obtain ⟨us', rest', a', rfl, h4, hs', hd', _⟩ := q
        rw [hc3, hc2] at hd'
        have fin : Post .command (us ++ (.assign, p1.tok.value) :: (us' ++ rest')) p ⟨0, 0, false⟩ p4 := by
          refine ⟨us ++ (.assign, p1.tok.value) :: us', rest', _, by simp, h4, .assign hs ?_ hs', hd.assign hd', closed_of rfl rfl⟩
          rintro f b rfl
          exact e2 (hk.mpr rfl)
        exact wp_ite (fun _ => wp_emit (wp_done fin)) (fun _ => wp_ite (fun _ => wp_emit (wp_done fin)) (fun _ => wp_ite (fun _ => wp_emit (wp_done fin)) (fun _ => wp_done fin)))
      exact wp_ite (fun _ => wp_emit (tl _ h1 rfl rfl)) (fun _ => tl _ h1 rfl rfl)
    · refine wp_emit (wp_done ?_)
      have := hk.mp e2
      cases a with
      | call f b => exact ⟨us, rest, .run (.call f b), rfl, h1, .run hs, hd.run, closed_of rfl rfl⟩
      | _ => cases this

theorem wp_blockstat (ih : Sound R n) (h : At p ts) (hn : need .blockstat ts < n + 1) : Wp (body R .blockstat) p (Post .blockstat ts p) := by
  simp only [body]
  refine wp_tok (wp_ite (fun e => ?_) (fun e => ?_))
  · refine wp_last ih (.block true) h (by simp) (by fuel) fun _ p1 q => ?_
    obtain ⟨us, rest, b, rfl, h1, hs, hd⟩ := q
    exact ⟨us, rest, .block b, rfl, h1, .subBlk hs, hd, closed_of rfl rfl⟩
  · refine wp_last ih .stat h (by simp) (by fuel) fun _ p1 q => ?_
    simp only [Post] at q
    by_cases e1 : p.tok.type = .blockclose
    · rw [if_pos e1] at q
      subst q
      exact ⟨[], ts, .skip, rfl, h, .sub0, did_skip _, fun _ => e1, by simp [openIf]⟩
    · rw [if_neg e1] at q
      obtain ⟨us, rest, a, rfl, h1, hs, hd, k⟩ := q
      exact ⟨us, rest, a, rfl, h1, .sub hs, hd, k⟩

theorem wp_stat (ih : Sound R n) (h : At p ts) (hn : need .stat ts < n + 1) : Wp (body R .stat) p (Post .stat ts p) := by
  simp only [body]
  have ne : ∀ {t : TT}, p.tok.type = t → t ≠ .blockclose → ∀ {r : Ret} {p' : P}, Phrase .stat ts p p' (Closed p') → Post .stat ts p r p' := by
    intro t e k r p' q
    simp only [Post]
    rw [if_neg (by rw [e]; exact k)]
    exact q
  refine wp_tok (wp_ite (fun e => ?_) (fun e0 => wp_ite (fun e => ?_) (fun _ => wp_ite (fun e => ?_) (fun _ => wp_ite (fun e => ?_) (fun _ => wp_ite (fun e => ?_) (fun _ =>
    wp_ite (fun e => ?_) (fun _ => ?_)))))))
  · refine wp_done ?_
    simp only [Post]
    rw [if_pos (e.resolve_left h.view.1)]
    trivial
  · exact wp_last ih .var h (by simp) (by fuel) fun _ p1 q => ne e (by decide) q
  · exact wp_last ih .fun_ h (by simp) (by fuel) fun _ p1 q => ne e (by decide) q
  · exact wp_last ih .if_ h (by simp) (by fuel) fun _ p1 q => ne e (by decide) q
  · exact wp_last ih .for_ h (by simp) (by fuel) fun _ p1 q => ne e (by decide) q
  · exact wp_last ih .while_ h (by simp) (by fuel) fun _ p1 q => ne e (by decide) q
  · refine wp_last ih .command h (by simp) (by fuel) fun _ p1 q => ne rfl (fun k => e0 (Or.inr k)) ?_
    obtain ⟨us, rest, a, e1, h1, hs, hd, k⟩ := q
    exact ⟨us, rest, a, e1, h1, .simple hs, hd, k⟩

theorem wp_if_ (ih : Sound R n) (h : At p ts) (hn : need .if_ ts < n + 1) : Wp (body R .if_) p (Post .if_ ts p) := by
  simp only [body]
  refine wp_step (a := p.labels) (p' := labelled 2 p) rfl rfl ?_
  refine wp_take (ts := ts) (p := labelled 2 p) h (by decide) fun p1 u r hts h1 hc1 _ => ?_
  subst hts
  refine wp_take h1 (by decide) fun p2 v r2 hr h2 hc2 _ => ?_
  subst hr
  refine wp_call ih .cond h2 (by simp) (by fuel) fun _ p3 q => ?_
  obtain ⟨us, rest, c, rfl, h3, hs, hd, _⟩ := q
  refine wp_take h3 (by decide) fun p4 w r4 hr h4 hc4 _ => wp_emit ?_
  subst hr
  have hd1 : Did c (lab 2 (cs p)) (cs p4) := by
    rw [hc4]
    rw [hc2, hc1] at hd
    exact hd
  refine wp_call (ts := r4) (p := emitted _ p4) ih .blockstat h4 (by simp) (by fuel) fun _ p5 q => ?_
  obtain ⟨us', rest', a, rfl, h5, hs', hd', k⟩ := q
  refine wp_tok (wp_ite (fun e => ?_) (fun e => ?_))
  · refine wp_fetch h5 (by rw [e]; decide) fun p6 r6 hr h6 hc6 _ => wp_emit (wp_emit ?_)
    rw [e] at hr
    subst hr
    refine wp_call (ts := r6) (p := emitted _ (emitted _ p6)) ih .blockstat h6 (by simp) (by fuel) fun _ p7 q => wp_emit (wp_done ?_)
    obtain ⟨us'', rest'', b, rfl, h7, hs'', hd'', k''⟩ := q
    have hb : bare a = false := by
      cases hb : bare a with
      | false => rfl
      | true =>
        have := k.1 hb
        rw [e] at this
        cases this
    have ho : openIf a = false := by
      cases ho : openIf a with
      | false => rfl
      | true => exact absurd e (k.2 ho)
    have hd2 : Did b (cs p5) (cs p7) := by
      rw [← hc6]
      exact hd''
    exact ⟨(.if_, u) :: (.paropen, v) :: (us ++ (.parclose, w) :: (us' ++ (.else_, p5.tok.value) :: us'')), rest'', .ite c a b, by simp, h7,
      .ite hs hs' hb ho hs'', hd1.ite hd' hd2, k''⟩
  · refine wp_emit (wp_done ?_)
    exact ⟨(.if_, u) :: (.paropen, v) :: (us ++ (.parclose, w) :: us'), rest', .ifs c a, by simp, h5, .ifs hs hs', hd1.ifs hd', k.1, fun _ => e⟩

theorem wp_while_ (ih : Sound R n) (h : At p ts) (hn : need .while_ ts < n + 1) : Wp (body R .while_) p (Post .while_ ts p) := by
  simp only [body]
  refine wp_step (a := p.labels) (p' := labelled 2 p) rfl rfl ?_
  refine wp_take (ts := ts) (p := labelled 2 p) h (by decide) fun p1 u r hts h1 hc1 _ => ?_
  subst hts
  refine wp_take h1 (by decide) fun p2 v r2 hr h2 hc2 _ => wp_emit ?_
  subst hr
  refine wp_call (ts := r2) (p := emitted _ p2) ih .cond h2 (by simp) (by fuel) fun _ p3 q => ?_
  obtain ⟨us, rest, c, rfl, h3, hs, hd, _⟩ := q
  refine wp_take h3 (by decide) fun p4 w r4 hr h4 hc4 _ => wp_emit ?_
  subst hr
  have hd1 : Did c (lab 2 (cs p)) (cs p4) := by
    rw [hc4]
    replace hd : Did c (cs p2) (cs p3) := hd
    rw [hc2, hc1] at hd
    exact hd
  refine wp_call (ts := r4) (p := emitted _ p4) ih .blockstat h4 (by simp) (by fuel) fun _ p5 q => wp_emit (wp_emit (wp_done ?_))
  obtain ⟨us', rest', a, rfl, h5, hs', hd', k⟩ := q
  exact ⟨(.while_, u) :: (.paropen, v) :: (us ++ (.parclose, w) :: us'), rest', .while_ c a, by simp, h5, .while_ hs hs', hd1.while_ hd', k⟩

theorem not_bare {p' : P} {a : Ast} (k : Closed p' a) (h : p'.tok.type ≠ .blockclose) : bare a = false := by
  cases hb : bare a with
  | false => rfl
  | true => exact absurd (k.1 hb) h

theorem wp_for_ (ih : Sound R n) (h : At p ts) (hn : need .for_ ts < n + 1) : Wp (body R .for_) p (Post .for_ ts p) := by
  simp only [body]
  refine wp_step (a := p.labels) (p' := labelled 4 p) rfl rfl ?_
  refine wp_take (ts := ts) (p := labelled 4 p) h (by decide) fun p1 u r hts h1 hc1 _ => ?_
  subst hts
  refine wp_take h1 (by decide) fun p2 v r2 hr h2 hc2 _ => ?_
  subst hr
  refine wp_call ih .command h2 (by simp) (by fuel) fun _ p3 q => ?_
  obtain ⟨us, rest, i, rfl, h3, hs, hd, ki⟩ := q
  refine wp_take h3 (by decide) fun p4 w r4 hr h4 hc4 _ => wp_emit ?_
  subst hr
  have hbi := not_bare ki (by rw [h3.view.type]; decide)
  have hd1 : Did i (lab 4 (cs p)) (cs p4) := by
    rw [hc4]
    rw [hc2, hc1] at hd
    exact hd
  refine wp_call (ts := r4) (p := emitted _ p4) ih .cond h4 (by simp) (by fuel) fun _ p5 q => ?_
  obtain ⟨us1, rest1, c, rfl, h5, hs1, hd2, _⟩ := q
  refine wp_take h5 (by decide) fun p6 x r6 hr h6 hc6 _ => wp_emit (wp_emit (wp_emit ?_))
  subst hr
  refine wp_call (ts := r6) (p := emitted _ (emitted _ (emitted _ p6))) ih .command h6 (by simp) (by fuel) fun _ p7 q => ?_
  obtain ⟨us2, rest2, k, rfl, h7, hs2, hd3, kk⟩ := q
  refine wp_take h7 (by decide) fun p8 y r8 hr h8 hc8 _ => wp_emit (wp_emit ?_)
  subst hr
  have hbk := not_bare kk (by rw [h7.view.type]; decide)
  refine wp_call (ts := r8) (p := emitted _ (emitted _ p8)) ih .blockstat h8 (by simp) (by fuel) fun _ p9 q => wp_emit (wp_emit (wp_done ?_))
  obtain ⟨us3, rest3, a, rfl, h9, hs3, hd4, ka⟩ := q
  have e2 : Did c (cs p4) (cs p6) := by rw [hc6]; exact hd2
  have e3 : Did k (cs p6) (cs p8) := by rw [hc8]; exact hd3
  exact ⟨(.for_, u) :: (.paropen, v) :: (us ++ (.listsep, w) :: (us1 ++ (.listsep, x) :: (us2 ++ (.parclose, y) :: us3))), rest3, .for_ i c k a, by simp, h9,
    .for_ hs hbi hs1 hs2 hbk hs3, hd1.for_ e2 e3 hd4, ka⟩

theorem stats_cons' {us rest : List T2} {s : Ast} {p p1 p2 : P} (hs : Syn .stat us s) (hd : Did s (cs p) (cs p1)) (h1 : At p1 rest) (k : Closed p1 s) (q : Stats rest p1 p2) :
    Stats (us ++ rest) p p2 := by
  obtain ⟨vs, rest', l, rfl, h2, hs', hd', e⟩ := q
  have hb : bare s = true → vs = [] := by
    intro hb
    have hc := k.1 hb
    rcases stats_shape hs' rfl with ⟨e1, _⟩ | hst
    · exact e1
    · exact absurd (Or.inr hc) (hst.ne_close h1.view)
  refine ⟨us ++ vs, rest', .seq s l, by simp, h2, .stats (ts := us) (us := vs) hs hs' hb, hd.seq hd', e.imp_right fun e => ⟨e.1, ?_⟩⟩
  have : l = .skip ∨ ∃ a b, l = .seq a b := by
    cases hs' with
    | stats0 => exact Or.inl rfl
    | stats _ _ _ => exact Or.inr ⟨_, _, rfl⟩
  rcases this with rfl | ⟨a, b, rfl⟩
  · show (!bare s) = true
    cases hb' : bare s with
    | false => rfl
    | true =>
      have hc := k.1 hb'
      have hv := hb hb'
      subst hv
      have hc2 : p2.tok.type = p1.tok.type := by
        obtain ⟨r1, e1⟩ := h1.cons
        obtain ⟨r2, e2⟩ := h2.cons
        rw [List.nil_append] at e1
        rw [e1] at e2
        simp only [List.cons.injEq, Prod.mk.injEq] at e2
        exact e2.1.1.symm
      rw [hc2, hc] at e
      cases e.1
  · exact e.2

theorem wp_statRest (ih : Sound R n) (h : At p ts) (hn : need .statRest ts < n + 1) : Wp (body R .statRest) p (Post .statRest ts p) := by
  simp only [body]
  refine wp_tok (wp_ite (fun e => ?_) (fun e => ?_))
  · refine wp_done ⟨[], ts, .skip, rfl, h, .stats0, did_skip _, ?_⟩
    rcases e with e | e
    · exact Or.inr ⟨e, rfl⟩
    · exact Or.inl e
  · refine wp_call ih .stat h (by simp) (by fuel) fun _ p1 q => ?_
    simp only [Post] at q
    rw [if_neg (fun k => e (Or.inr k))] at q
    obtain ⟨us, rest, a, rfl, h1, hs, hd, k, hl⟩ := q.len (by decide) (by decide)
    exact wp_last ih .statRest h1 (by simp) (by fuel) fun _ p2 q => stats_cons' hs hd h1 k q

theorem wp_statlist (ih : Sound R n) (h : At p ts) (hn : need .statlist ts < n + 1) : Wp (body R .statlist) p (Post .statlist ts p) := by
  simp only [body]
  refine wp_call ih .stat h (by simp) (by fuel) fun _ p1 q => ?_
  simp only [Post] at q
  by_cases e : p.tok.type = .blockclose
  · rw [if_pos e] at q
    subst q
    exact wp_last ih .statRest h (by simp) (by fuel) fun _ p2 q => q
  · rw [if_neg e] at q
    obtain ⟨us, rest, a, rfl, h1, hs, hd, k, hl⟩ := q.len (by decide) (by decide)
    exact wp_last ih .statRest h1 (by simp) (by fuel) fun _ p2 q => stats_cons' hs hd h1 k q

/-- **Every parsing function, with enough fuel, ends; if it succeeds, it has read a phrase of the grammar.** -/
theorem sound : ∀ n, Sound (parse n) n := by
  intro n
  induction n with
  | zero => exact fun _ _ _ _ _ h => absurd h (Nat.not_lt_zero _)
  | succ n ih =>
    intro nt ts p h hp hn
    show Wp (body (parse n) nt) p _
    cases nt with
    | statlist => exact wp_statlist ih h hn
    | statRest => exact wp_statRest ih h hn
    | stat => exact wp_stat ih h hn
    | block push => exact wp_block ih h hn
    | blockstat => exact wp_blockstat ih h hn
    | var => exact wp_var ih h hn
    | fun_ => exact wp_fun_ ih h hn
    | if_ => exact wp_if_ ih h hn
    | for_ => exact wp_for_ ih h hn
    | while_ => exact wp_while_ ih h hn
    | condlist => exact wp_condlist ih h hn
    | condlistRest k => exact wp_condlistRest ih h hn
    | cond => exact wp_cond ih h hn
    | condRest => exact wp_condRest ih h hn
    | cmp => exact wp_cmp ih h hn
    | expr => exact wp_expr ih h hn
    | entry => exact wp_entry ih h (hp rfl) hn
    | entries => exact wp_entries ih h hn
    | sumRest => exact wp_sumRest ih h hn
    | prod => exact wp_prod ih h hn
    | prodRest => exact wp_prodRest ih h hn
    | modulo => exact wp_modulo ih h hn
    | modRest => exact wp_modRest ih h hn
    | power => exact wp_power ih h hn
    | shift => exact wp_shift ih h hn
    | shiftRest => exact wp_shiftRest ih h hn
    | andor => exact wp_andor ih h hn
    | andorRest => exact wp_andorRest ih h hn
    | bnot => exact wp_bnot ih h hn
    | operand => exact wp_operand ih h hn
    | command => exact wp_command ih h hn
    | idlist => exact wp_idlist ih h hn
    | idlistRest => exact wp_idlistRest ih h hn
    | idref lv => exact wp_idref ih h hn
    | idrefRest lv info glob saved => exact wp_idrefRest ih h hn
    | lambda => exact wp_lambda ih h hn

end

end Buzz.Accept
