import Verif.ParseAll

/-
The parsing functions for expressions.
-/
namespace Buzz.Accept

open Buzz.Msg Buzz.Lex Buzz.Parser Buzz.Comp Buzz.Lang Buzz.Debug
open Buzz.VM (Bin Un)

/-- The fuel is enough. -/
macro "fuel" : tactic => `(tactic| (simp only [need, rank, List.length_cons, List.length_append] at *; omega))

section
variable {R : NT → M Ret} {n : Nat} {p : P} {ts : List T2}

/-- A loop over a binary operator. -/
theorem round {c c1 : Cat} {loop : NT} {t : T2} {us rest : List T2} {a : Ast} {o : Bin} {p p1 p2 p3 : P} (h1 : cs p1 = cs p)
    (hs : ∀ us0 a0, Syn c us0 a0 → Syn c (us0 ++ t :: us) (.bin o a0 a)) (hd : Did a (cs p1) (cs p2)) (h : Loop c rest p2 p3) :
    Loop c (t :: (us ++ rest)) p p3 := by
  intro c0 us0 a0 k1 k2
  rw [← h1] at k2
  exact (h c0 _ _ (hs us0 a0 k1) (k2.bin hd)).more

theorem wp_condRest (ih : Sound R n) (h : At p ts) (hn : need .condRest ts < n + 1) : Wp (body R .condRest) p (Post .condRest ts p) := by
  simp only [body]
  refine wp_tok (wp_ite (fun e => ?_) (fun e => ?_))
  · refine wp_fetch h (by rw [e]; decide) fun p1 r hts h1 hc hok => ?_
    rw [e] at hts hok
    subst hts
    obtain ⟨o, ho⟩ := hok
    refine wp_call ih .cmp h1 (by simp) (by fuel) fun _ p2 q => ?_
    obtain ⟨us, rest, a, rfl, h2, hs, hd, _⟩ := q
    have tl : ∀ p3, At p3 rest → cs p3 = cs p2 → Wp (R .condRest) p3 (Post .condRest ((.landor, p.tok.value) :: (us ++ rest)) p) := by
      intro p3 h3 hc3
      refine wp_last ih .condRest h3 (by simp) (by fuel) fun _ p4 q => ?_
      exact round (c1 := .cmp) (loop := .condRest) (o := o) hc (fun us0 a0 k => .logic k ho hs) (hc3 ▸ hd) q
    refine wp_ite (fun _ => wp_emit (tl _ h2 rfl)) (fun n1 => wp_ite (fun _ => wp_emit (tl _ h2 rfl)) (fun n2 => ?_))
    generalize p.tok.value = v at *
    cases ho
    · exact absurd rfl n1
    · exact absurd rfl n2
  · exact wp_done (Loop.nil h)

theorem wp_sumRest (ih : Sound R n) (h : At p ts) (hn : need .sumRest ts < n + 1) : Wp (body R .sumRest) p (Post .sumRest ts p) := by
  simp only [body]
  refine wp_tok (wp_ite (fun e => ?_) (fun e => ?_))
  · refine wp_fetch h (by rw [e]; decide) fun p1 r hts h1 hc hok => ?_
    rw [e] at hts hok
    subst hts
    obtain ⟨o, ho⟩ := hok
    refine wp_call ih .prod h1 (by simp) (by fuel) fun _ p2 q => ?_
    obtain ⟨us, rest, a, rfl, h2, hs, hd, _⟩ := q
    have tl : ∀ p3, At p3 rest → cs p3 = cs p2 → Wp (R .sumRest) p3 (Post .sumRest ((.addsub, p.tok.value) :: (us ++ rest)) p) := by
      intro p3 h3 hc3
      refine wp_last ih .sumRest h3 (by simp) (by fuel) fun _ p4 q => ?_
      exact round (c1 := .prod) (loop := .sumRest) (o := o) hc (fun us0 a0 k => .sum k ho hs) (hc3 ▸ hd) q
    exact wp_ite (fun _ => wp_emit (tl _ h2 rfl)) (fun n1 => wp_ite (fun _ => wp_emit (tl _ h2 rfl)) (fun n2 => tl _ h2 rfl))
  · exact wp_done (Loop.nil h)

theorem wp_prodRest (ih : Sound R n) (h : At p ts) (hn : need .prodRest ts < n + 1) : Wp (body R .prodRest) p (Post .prodRest ts p) := by
  simp only [body]
  refine wp_tok (wp_ite (fun e => ?_) (fun e => ?_))
  · refine wp_fetch h (by rw [e]; decide) fun p1 r hts h1 hc hok => ?_
    rw [e] at hts hok
    subst hts
    obtain ⟨o, ho⟩ := hok
    refine wp_call ih .modulo h1 (by simp) (by fuel) fun _ p2 q => ?_
    obtain ⟨us, rest, a, rfl, h2, hs, hd, _⟩ := q
    have tl : ∀ p3, At p3 rest → cs p3 = cs p2 → Wp (R .prodRest) p3 (Post .prodRest ((.muldiv, p.tok.value) :: (us ++ rest)) p) := by
      intro p3 h3 hc3
      refine wp_last ih .prodRest h3 (by simp) (by fuel) fun _ p4 q => ?_
      exact round (c1 := .modu) (loop := .prodRest) (o := o) hc (fun us0 a0 k => .prod k ho hs) (hc3 ▸ hd) q
    exact wp_ite (fun _ => wp_emit (tl _ h2 rfl)) (fun n1 => wp_ite (fun _ => wp_emit (tl _ h2 rfl)) (fun n2 => tl _ h2 rfl))
  · exact wp_done (Loop.nil h)

theorem wp_modRest (ih : Sound R n) (h : At p ts) (hn : need .modRest ts < n + 1) : Wp (body R .modRest) p (Post .modRest ts p) := by
  simp only [body]
  refine wp_tok (wp_ite (fun e => ?_) (fun e => ?_))
  · refine wp_fetch h (by rw [e]; decide) fun p1 r hts h1 hc hok => ?_
    rw [e] at hts hok
    subst hts
    obtain ⟨o, ho⟩ := hok
    refine wp_call ih .power h1 (by simp) (by fuel) fun _ p2 q => ?_
    obtain ⟨us, rest, a, rfl, h2, hs, hd, _⟩ := q
    refine wp_emit (wp_last (ts := rest) ih .modRest h2 (by simp) (by fuel) fun _ p4 q => ?_)
    exact round (p2 := p2) (c1 := .pow) (loop := .modRest) (o := o) hc (fun us0 a0 k => .modu k ho hs) hd q
  · exact wp_done (Loop.nil h)

theorem wp_shiftRest (ih : Sound R n) (h : At p ts) (hn : need .shiftRest ts < n + 1) : Wp (body R .shiftRest) p (Post .shiftRest ts p) := by
  simp only [body]
  refine wp_tok (wp_ite (fun e => ?_) (fun e => ?_))
  · refine wp_fetch h (by rw [e]; decide) fun p1 r hts h1 hc hok => ?_
    rw [e] at hts hok
    subst hts
    obtain ⟨o, ho⟩ := hok
    refine wp_call ih .andor h1 (by simp) (by fuel) fun _ p2 q => ?_
    obtain ⟨e1, us, rest, a, rfl, h2, hs, hd, g1, g2⟩ := q
    have tl : ∀ p3, At p3 rest → cs p3 = cs p2 → p3.tok = p2.tok → Wp (R .shiftRest) p3 (Post .shiftRest ((.lrshift, p.tok.value) :: (us ++ rest)) p) := by
      intro p3 h3 hc3 ht3
      refine wp_last ih .shiftRest h3 (by simp) (by fuel) fun _ p4 q => ?_
      intro c0 us0 a0 e0 k1 k2 k3 k4
      cases e0 with
      | true =>
        refine absurd ?_ (k4 rfl)
        rw [e]
        decide
      | false =>
        rw [← hc] at k2
        obtain ⟨e', q⟩ := q c0 _ _ e1 (.shift k1 ho hs) (hc3 ▸ k2.bin hd) (ht3 ▸ g1) (ht3 ▸ g2)
        exact ⟨e', q.more⟩
    exact wp_ite (fun _ => wp_emit (tl _ h2 rfl rfl)) (fun n1 => wp_ite (fun _ => wp_emit (tl _ h2 rfl rfl)) (fun n2 => tl _ h2 rfl rfl))
  · refine wp_done ?_
    intro c0 us0 a0 e0 k1 k2 k3 k4
    exact ⟨e0, [], ts, a0, rfl, h, by simpa using k1, k2, k3, e, k4⟩

theorem wp_andorRest (ih : Sound R n) (h : At p ts) (hn : need .andorRest ts < n + 1) : Wp (body R .andorRest) p (Post .andorRest ts p) := by
  simp only [body]
  refine wp_tok (wp_ite (fun e => ?_) (fun e => ?_))
  · refine wp_fetch h (by rw [e]; decide) fun p1 r hts h1 hc hok => ?_
    rw [e] at hts hok
    subst hts
    obtain ⟨o, ho⟩ := hok
    refine wp_call ih .bnot h1 (by simp) (by fuel) fun _ p2 q => ?_
    obtain ⟨e1, us, rest, a, rfl, h2, hs, hd, g2⟩ := q
    have tl : ∀ p3, At p3 rest → cs p3 = cs p2 → p3.tok = p2.tok → Wp (R .andorRest) p3 (Post .andorRest ((.bandor, p.tok.value) :: (us ++ rest)) p) := by
      intro p3 h3 hc3 ht3
      refine wp_last ih .andorRest h3 (by simp) (by fuel) fun _ p4 q => ?_
      intro c0 us0 a0 e0 k1 k2 k4
      cases e0 with
      | true =>
        refine absurd ?_ (k4 rfl)
        rw [e]
        decide
      | false =>
        rw [← hc] at k2
        obtain ⟨e', q⟩ := q c0 _ _ e1 (.andor k1 ho hs) (hc3 ▸ k2.bin hd) (ht3 ▸ g2)
        exact ⟨e', q.more⟩
    exact wp_ite (fun _ => wp_emit (tl _ h2 rfl rfl)) (fun n1 => wp_ite (fun _ => wp_emit (tl _ h2 rfl rfl)) (fun n2 => wp_bind wp_fail))
  · refine wp_done ?_
    intro c0 us0 a0 e0 k1 k2 k4
    exact ⟨e0, [], ts, a0, rfl, h, by simpa using k1, k2, e, k4⟩

theorem wp_cond (ih : Sound R n) (h : At p ts) (hn : need .cond ts < n + 1) : Wp (body R .cond) p (Post .cond ts p) := by
  simp only [body]
  refine wp_tok (wp_ite (fun e => ?_) (fun e => ?_))
  · refine wp_fetch h (by rw [e]; decide) fun p1 r hts h1 hc hok => ?_
    rw [e] at hts
    subst hts
    refine wp_call ih .cond h1 (by simp) (by fuel) fun _ p2 q => ?_
    obtain ⟨us, rest, a, rfl, h2, hs, hd, _⟩ := q
    refine wp_emit (wp_done ?_)
    exact ⟨(.lnot, p.tok.value) :: us, rest, _, rfl, h2, .not hs, (hc ▸ hd).un, trivial⟩
  · refine wp_call ih .cmp h (by simp) (by fuel) fun _ p2 q => ?_
    obtain ⟨us, rest, a, rfl, h2, hs, hd, _, hl⟩ := q.len (by decide) (by decide)
    refine wp_last ih .condRest h2 (by simp) (by fuel) fun _ p4 q => ?_
    obtain ⟨us', rest', a', e1, e2, e3, e4, e5⟩ := q.after (.logic1 hs) hd
    exact ⟨us', rest', a', e1, e2, .cond e3, e4, e5⟩

theorem wp_cmp (ih : Sound R n) (h : At p ts) (hn : need .cmp ts < n + 1) : Wp (body R .cmp) p (Post .cmp ts p) := by
  simp only [body]
  refine wp_call ih .expr h (by simp) (by fuel) fun _ p2 q => ?_
  obtain ⟨us, rest, a, rfl, h2, hs, hd, _, hl⟩ := q.len (by decide) (by decide)
  refine wp_tok (wp_ite (fun e => ?_) (fun e => ?_))
  · refine wp_fetch h2 (by rw [e]; decide) fun p3 r hts h3 hc hok => ?_
    rw [e] at hts hok
    subst hts
    obtain ⟨o, ho⟩ := hok
    refine wp_call ih .expr h3 (by simp) (by fuel) fun _ p4 q => ?_
    obtain ⟨us', rest', a', rfl, h4, hs', hd', _⟩ := q
    have fin : ∀ p5, At p5 rest' → cs p5 = cs p4 → Post .cmp (us ++ (.cmp, p2.tok.value) :: (us' ++ rest')) p ⟨0, 0, false⟩ p5 := by
      intro p5 h5 hc5
      exact ⟨us ++ (.cmp, p2.tok.value) :: us', rest', _, by simp, h5, .cmp hs ho hs', hd.bin (hc ▸ hc5 ▸ hd'), trivial⟩
    cases hcm : cmpOp p2.tok.value with
    | some i => exact wp_emit (wp_done (fin _ h4 rfl))
    | none =>
      generalize p2.tok.value = v at *
      cases ho <;> exact absurd hcm (by decide)
  · exact wp_done ⟨us, rest, a, rfl, h2, .cmp1 hs, hd, trivial⟩

theorem wp_prod (ih : Sound R n) (h : At p ts) (hn : need .prod ts < n + 1) : Wp (body R .prod) p (Post .prod ts p) := by
  simp only [body]
  refine wp_call ih .modulo h (by simp) (by fuel) fun _ p2 q => ?_
  obtain ⟨us, rest, a, rfl, h2, hs, hd, _, hl⟩ := q.len (by decide) (by decide)
  exact wp_last ih .prodRest h2 (by simp) (by fuel) fun _ p4 q => q.after (.prod1 hs) hd

theorem wp_modulo (ih : Sound R n) (h : At p ts) (hn : need .modulo ts < n + 1) : Wp (body R .modulo) p (Post .modulo ts p) := by
  simp only [body]
  refine wp_call ih .power h (by simp) (by fuel) fun _ p2 q => ?_
  obtain ⟨us, rest, a, rfl, h2, hs, hd, _, hl⟩ := q.len (by decide) (by decide)
  exact wp_last ih .modRest h2 (by simp) (by fuel) fun _ p4 q => q.after (.modu1 hs) hd

theorem wp_power (ih : Sound R n) (h : At p ts) (hn : need .power ts < n + 1) : Wp (body R .power) p (Post .power ts p) := by
  simp only [body]
  refine wp_call ih .shift h (by simp) (by fuel) fun _ p2 q => ?_
  obtain ⟨e1, q⟩ := q
  obtain ⟨us, rest, a, rfl, h2, hs, hd, ⟨g1, g2, g3⟩, hl⟩ := q.len (by simp) (by simp)
  refine wp_tok (wp_ite (fun e => ?_) (fun e => ?_))
  · refine wp_fetch h2 (by rw [e]; decide) fun p3 r hts h3 hc hok => ?_
    rw [e] at hts hok
    subst hts
    obtain ⟨o, ho⟩ := hok
    refine wp_call ih .power h3 (by simp) (by fuel) fun _ p4 q => ?_
    obtain ⟨us', rest', a', rfl, h4, hs', hd', g4⟩ := q
    refine wp_emit (wp_done ?_)
    cases e1 with
    | true =>
      refine absurd ?_ (g3 rfl)
      rw [e]
      decide
    | false => exact ⟨us ++ (.pow, p2.tok.value) :: us', rest', _, by simp, h4, .pow hs ho hs', hd.bin (hc ▸ hd'), g4⟩
  · exact wp_done ⟨us, rest, a, rfl, h2, .pow1 hs, hd, by simp [tight, g1, g2, e]⟩

theorem wp_shift (ih : Sound R n) (h : At p ts) (hn : need .shift ts < n + 1) : Wp (body R .shift) p (Post .shift ts p) := by
  simp only [body]
  refine wp_call ih .andor h (by simp) (by fuel) fun _ p2 q => ?_
  obtain ⟨e1, q⟩ := q
  obtain ⟨us, rest, a, rfl, h2, hs, hd, ⟨g1, g2⟩, hl⟩ := q.len (by simp) (by simp)
  refine wp_last ih .shiftRest h2 (by simp) (by fuel) fun _ p4 q => ?_
  obtain ⟨e', us', rest', a', rfl, k1, k2, k3, k4⟩ := q _ _ _ e1 (.shift1 hs) hd g1 g2
  exact ⟨e', us ++ us', rest', a', by simp, k1, by simpa using k2, k3, k4⟩

theorem wp_andor (ih : Sound R n) (h : At p ts) (hn : need .andor ts < n + 1) : Wp (body R .andor) p (Post .andor ts p) := by
  simp only [body]
  refine wp_call ih .bnot h (by simp) (by fuel) fun _ p2 q => ?_
  obtain ⟨e1, q⟩ := q
  obtain ⟨us, rest, a, rfl, h2, hs, hd, g2, hl⟩ := q.len (by simp) (by simp)
  refine wp_last ih .andorRest h2 (by simp) (by fuel) fun _ p4 q => ?_
  obtain ⟨e', us', rest', a', rfl, k1, k2, k3, k4⟩ := q _ _ _ e1 (.andor1 hs) hd g2
  exact ⟨e', us ++ us', rest', a', by simp, k1, by simpa using k2, k3, k4⟩

theorem wp_bnot (ih : Sound R n) (h : At p ts) (hn : need .bnot ts < n + 1) : Wp (body R .bnot) p (Post .bnot ts p) := by
  simp only [body]
  refine wp_tok (wp_ite (fun e => ?_) (fun e => ?_))
  · refine wp_fetch h (by rw [e]; decide) fun p1 r hts h1 hc hok => ?_
    rw [e] at hts
    subst hts
    refine wp_call ih .bnot h1 (by simp) (by fuel) fun _ p2 q => ?_
    obtain ⟨e1, us, rest, a, rfl, h2, hs, hd, k⟩ := q
    exact wp_emit (wp_done ⟨e1, (.bnot, p.tok.value) :: us, rest, _, rfl, h2, .bnot hs, (hc ▸ hd).un, k⟩)
  · refine wp_last ih .operand h (by simp) (by fuel) fun _ p2 q => ?_
    obtain ⟨e1, us, rest, a, rfl, h2, hs, hd, k⟩ := q
    exact ⟨e1, us, rest, a, rfl, h2, .opnd hs, hd, k⟩

theorem wp_expr (ih : Sound R n) (h : At p ts) (hn : need .expr ts < n + 1) : Wp (body R .expr) p (Post .expr ts p) := by
  simp only [body]
  refine wp_tok (wp_ite (fun e => ?_) (fun e => ?_))
  · refine wp_fetch h (by rw [e]; decide) fun p1 r hts h1 hc hok => ?_
    rw [e] at hts
    subst hts
    refine wp_tok (wp_ite (fun _ => wp_failHere) (fun e1 => ?_))
    refine wp_emit (wp_ite (fun e2 => ?_) (fun e2 => ?_))
    · refine wp_emit ?_
      refine wp_call (ts := r) ih .entry h1 (fun _ => e2) (by fuel) fun _ p2 q => ?_
      obtain ⟨v, w, t, k, us, rest, a, rfl, h2, hk, hs, hd⟩ := q
      refine wp_call ih .entries h2 (by simp) (by fuel) fun _ p3 q => ?_
      have hd1 : Did (.tset .tnew k a) (cs p) (cs p2) := Did.tset ⟨_, rfl, rfl⟩ (hc ▸ hd)
      obtain ⟨us', rest', a', e3, h3, hs', hd', _⟩ := q.after (.entry1 (v := v) (w := w) hk hs) hd1
      refine wp_take h3 (by decide) fun p4 v' r' hr h4 hc4 _ => wp_done ?_
      subst hr
      refine ⟨(.blockopen, p.tok.value) :: (us' ++ [(TT.blockclose, v')]), r', a', ?_, h4, .tab (ts := us') hs', hc4 ▸ hd', trivial⟩
      simpa using congrArg (List.cons (TT.blockopen, p.tok.value)) e3
    · refine wp_take (ts := r) (p := emitted _ p1) h1 (by decide) fun p4 v' r' hr h4 hc4 _ => wp_done ?_
      subst hr
      exact ⟨[(.blockopen, p.tok.value), (.blockclose, v')], r', .tnew, rfl, h4, .tab0, ⟨_, rfl, hc.symm.trans hc4.symm⟩, trivial⟩
  · refine wp_call ih .prod h (by simp) (by fuel) fun _ p2 q => ?_
    obtain ⟨us, rest, a, rfl, h2, hs, hd, _, hl⟩ := q.len (by decide) (by decide)
    refine wp_last ih .sumRest h2 (by simp) (by fuel) fun _ p4 q => ?_
    obtain ⟨us', rest', a', e1, e2, e3, e4, e5⟩ := q.after (.sum1 hs) hd
    exact ⟨us', rest', a', e1, e2, .expr e3, e4, e5⟩

theorem wp_entry (ih : Sound R n) (h : At p ts) (hp : p.tok.type = .dot) (hn : need .entry ts < n + 1) : Wp (body R .entry) p (Post .entry ts p) := by
  simp only [body]
  refine wp_fetch h (by rw [hp]; decide) fun p1 r hts h1 hc _ => ?_
  rw [hp] at hts
  subst hts
  have tl : ∀ k p2, KeyTok (p1.tok.type, p1.tok.value) k → At p2 r → p2.tok = p1.tok → cs p2 = keyed k (cs p) →
      Wp (Parser.fetch >>= fun _ => expect .assign >>= fun _ => Parser.fetch >>= fun _ => R .expr >>= fun _ => emit (.op 31) >>= fun _ => done) p2
        (Post .entry ((.dot, p.tok.value) :: r) p) := by
    intro k p2 hk h2 ht hc2
    refine wp_fetch h2 ?_ fun p3 r3 hr h3 hc3 _ => ?_
    · rw [ht]
      generalize p1.tok.type = ty at hk
      cases hk <;> simp
    rw [ht] at hr
    subst hr
    refine wp_take h3 (by decide) fun p4 w r4 hr h4 hc4 _ => ?_
    subst hr
    refine wp_call ih .expr h4 (by simp) (by fuel) fun _ p5 q => ?_
    obtain ⟨us, rest, a, rfl, h5, hs, hd, _⟩ := q
    refine wp_emit (wp_done ?_)
    refine ⟨_, w, _, k, us, rest, a, rfl, h5, hk, hs, ?_⟩
    rw [← hc2, ← hc3, ← hc4]
    exact hd
  simp only [entryKey]
  refine wp_bind (wp_tok (wp_ite (fun e => ?_) (fun e => wp_ite (fun e' => ?_) (fun _ => wp_failHere))))
  · refine wp_step (a := (stringAdd p1.strings p1.tok.value).2) (p' := { p1 with strings := (stringAdd p1.strings p1.tok.value).1 }) rfl rfl ?_
    refine wp_of (a := ()) (p' := emitted _ _) rfl rfl ?_
    refine tl (.name p1.tok.value) _ ?_ h1 rfl ?_
    · rw [e]
      exact .name
    · rw [← hc]
      rfl
  · refine wp_of (a := ()) (p' := emitted _ _) rfl rfl ?_
    refine tl (.num p1.tok.value) _ ?_ h1 rfl hc
    rw [e']
    exact .num

theorem wp_entries (ih : Sound R n) (h : At p ts) (hn : need .entries ts < n + 1) : Wp (body R .entries) p (Post .entries ts p) := by
  simp only [body]
  refine wp_tok (wp_ite (fun e => ?_) (fun e => wp_done (Loop.nil h)))
  refine wp_emit ?_
  refine wp_fetch (ts := ts) (p := emitted _ p) h (show p.tok.type ≠ .eof by rw [e]; decide) fun p1 r hts h1 hc _ => ?_
  replace hts : ts = (p.tok.type, p.tok.value) :: r := hts
  rw [e] at hts
  subst hts
  refine wp_expect fun e1 => ?_
  refine wp_call ih .entry h1 (fun _ => e1) (by fuel) fun _ p2 q => ?_
  obtain ⟨v, w, t, k, us, rest, a, rfl, h2, hk, hs, hd⟩ := q
  refine wp_last ih .entries h2 (by simp) (by fuel) fun _ p3 q => ?_
  intro c0 us0 a0 k1 k2
  rw [hc] at hd
  obtain ⟨vs, rest', b, rfl, h3, hs', hd', _⟩ := q c0 _ _ (.entry (u := p.tok.value) (v := v) (w := w) k1 hk hs) (Did.tset k2 hd)
  exact ⟨(.listsep, p.tok.value) :: (.dot, v) :: t :: (.assign, w) :: (us ++ vs), rest', b, by simp, h3, by simpa using hs', hd', trivial⟩

theorem wp_condlist (ih : Sound R n) (h : At p ts) (hn : need .condlist ts < n + 1) : Wp (body R .condlist) p (Post .condlist ts p) := by
  simp only [body]
  refine wp_tok (wp_ite (fun e => wp_done (Or.inl ⟨e, rfl⟩)) (fun e => ?_))
  refine wp_call ih .cond h (by simp) (by fuel) fun _ p2 q => ?_
  obtain ⟨us, rest, a, rfl, h2, hs, hd, _, hl⟩ := q.len (by decide) (by decide)
  refine wp_last ih (.condlistRest 1) h2 (by simp) (by fuel) fun _ p3 q => Or.inr ?_
  exact q.after (.arg1 hs) ((did_noArg _).arg hd)

theorem wp_condlistRest {k : Nat} (ih : Sound R n) (h : At p ts) (hn : need (.condlistRest k) ts < n + 1) :
    Wp (body R (.condlistRest k)) p (Post (.condlistRest k) ts p) := by
  simp only [body]
  refine wp_tok (wp_ite (fun e => ?_) (fun e => wp_pure (Loop.nil h)))
  refine wp_fetch h (by rw [e]; decide) fun p1 r hts h1 hc _ => ?_
  rw [e] at hts
  subst hts
  refine wp_call ih .cond h1 (by simp) (by fuel) fun _ p2 q => ?_
  obtain ⟨us, rest, a, rfl, h2, hs, hd, _, hl⟩ := q.len (by decide) (by decide)
  refine wp_last ih (.condlistRest (k + 1)) h2 (by simp) (by fuel) fun _ p3 q => ?_
  intro c0 us0 a0 k1 k2
  rw [hc] at hd
  exact (q c0 _ _ (.arg (v := p.tok.value) k1 hs) (k2.arg hd)).more

theorem wp_load {β : Type} {info : Int} {glob call : Bool} {f : Unit → M β} {p : P} {ts : List T2} {Q : β → P → Prop} (h : At p ts)
    (k : ∀ p1, At p1 ts → cs p1 = cs p → p1.tok = p.tok → Wp (f ()) p1 Q) : Wp (Parser.load info glob call >>= f) p Q := by
  refine wp_bind ?_
  unfold Parser.load
  have e1 : ∀ l, Wp (emit l) p (fun a p1 => Wp (f a) p1 Q) := fun l => wp_of (a := ()) (p' := emitted l p) rfl rfl (k _ h rfl rfl)
  refine wp_ite (fun _ => ?_) (fun _ => wp_ite (fun _ => ?_) (fun _ => wp_ite (fun _ => e1 _) (fun _ => wp_ite (fun _ => e1 _) (fun _ => wp_pure (k _ h rfl rfl)))))
  · refine wp_ite (fun _ => ?_) (fun _ => ?_)
    · refine wp_emit (wp_emit ?_)
      exact wp_of (a := ()) (p' := emitted _ (emitted _ (emitted _ p))) rfl rfl (k _ h rfl rfl)
    · refine wp_emit ?_
      exact wp_of (a := ()) (p' := emitted _ (emitted _ p)) rfl rfl (k _ h rfl rfl)
  · refine wp_ite (fun _ => ?_) (fun _ => e1 _)
    refine wp_emit ?_
    exact wp_of (a := ()) (p' := emitted _ (emitted _ p)) rfl rfl (k _ h rfl rfl)

theorem wp_idrefRest {lv glob : Bool} {info : Int} {saved : List (Ln × Pos)} (ih : Sound R n) (h : At p ts) (hn : need (.idrefRest lv info glob saved) ts < n + 1) :
    Wp (body R (.idrefRest lv info glob saved)) p (Post (.idrefRest lv info glob saved) ts p) := by
  simp only [body]
  refine wp_tok (wp_ite (fun e => ?_) (fun _ => wp_ite (fun e => ?_) (fun _ => wp_ite (fun e => ?_) (fun e => ?_))))
  · refine wp_load h fun p1 h1 hc1 ht1 => ?_
    refine wp_fetch h1 (by rw [ht1, e]; decide) fun p2 r hts h2 hc2 _ => ?_
    rw [ht1, e] at hts
    subst hts
    refine wp_expect fun e2 => wp_tok ?_
    refine wp_step (a := (stringAdd p2.strings p2.tok.value).2) (p' := { p2 with strings := (stringAdd p2.strings p2.tok.value).1 }) rfl rfl ?_
    refine wp_fetch (ts := r) (p := { p2 with strings := (stringAdd p2.strings p2.tok.value).1 }) h2 (show p2.tok.type ≠ .eof by rw [e2]; decide) fun p3 r3 hr h3 hc3 _ => ?_
    replace hr : r = (p2.tok.type, p2.tok.value) :: r3 := hr
    rw [e2] at hr
    subst hr
    have tl : ∀ p4, At p4 r3 → cs p4 = cs p3 → Wp (R (.idrefRest lv (-3) false saved)) p4
        (Post (.idrefRest lv info glob saved) ((.dot, p.tok.value) :: (.id, p2.tok.value) :: r3) p) := by
      intro p4 h4 hc4
      refine wp_last ih _ h4 (by simp) (by fuel) fun _ p5 q => ?_
      intro c0 us0 a0 k1 k2 _
      have hd : Did (.field a0 p2.tok.value) c0 (cs p4) := by
        rw [hc4, hc3]
        have := k2.field (s := p2.tok.value)
        rw [← hc1, ← hc2] at this
        exact this
      obtain ⟨vs, rest, b, rfl, h5, hs, hd, kk⟩ := q c0 _ _ (.field (v := p.tok.value) k1) hd (by simp [isCall])
      exact ⟨(.dot, p.tok.value) :: (.id, p2.tok.value) :: vs, rest, b, rfl, h5, by simpa using hs, hd, kk⟩
    refine wp_tok (wp_ite (fun _ => ?_) (fun _ => ?_))
    · exact wp_emit (wp_emit (tl _ h3 rfl))
    · exact wp_emit (tl _ h3 rfl)
  · refine wp_load h fun p1 h1 hc1 ht1 => ?_
    refine wp_fetch h1 (by rw [ht1, e]; decide) fun p2 r hts h2 hc2 _ => ?_
    rw [ht1, e] at hts
    subst hts
    refine wp_step (a := p2.code) (p' := { p2 with code := [] }) rfl rfl ?_
    refine wp_call (ts := r) ih .expr h2 (by simp) (by fuel) fun _ p3 q => ?_
    obtain ⟨us, rest, a, rfl, h3, hs, hd, _, hl⟩ := q.len (by decide) (by decide)
    refine wp_take h3 (by decide) fun p4 w r4 hr h4 hc4 _ => ?_
    subst hr
    have tl : ∀ p5, At p5 r4 → cs p5 = cs p4 → Wp (R (.idrefRest lv (-3) false saved)) p5
        (Post (.idrefRest lv info glob saved) ((.idxopen, p.tok.value) :: (us ++ (.idxclose, w) :: r4)) p) := by
      intro p5 h5 hc5
      refine wp_last ih _ h5 (by simp) (by fuel) fun _ p6 q => ?_
      intro c0 us0 a0 k1 k2 _
      have hd : Did (.index a0 a) c0 (cs p5) := by
        rw [hc5, hc4]
        refine k2.index ?_
        rw [← hc1, ← hc2]
        exact hd
      obtain ⟨vs, rest, b, rfl, h6, hs, hd, kk⟩ := q c0 _ _ (.index (v := p.tok.value) (w := w) k1 hs) hd (by simp [isCall])
      exact ⟨(.idxopen, p.tok.value) :: (us ++ (.idxclose, w) :: vs), rest, b, by simp, h6, by simpa using hs, hd, kk⟩
    refine wp_tok (wp_bind (wp_ite (fun _ => ?_) (fun _ => ?_)))
    · exact wp_of rfl rfl (wp_step (a := ()) rfl rfl (tl _ h4 rfl))
    · exact wp_pure (wp_step (a := ()) rfl rfl (tl _ h4 rfl))
  · refine wp_load h fun p1 h1 hc1 ht1 => ?_
    refine wp_fetch h1 (by rw [ht1, e]; decide) fun p2 r hts h2 hc2 _ => ?_
    rw [ht1, e] at hts
    subst hts
    refine wp_call ih .condlist h2 (by simp) (by fuel) fun r' p3 q => ?_
    have q' : ∃ us rest a, r = us ++ rest ∧ At p3 rest ∧ Did a (cs p2) (cs p3) ∧
        (∀ (w v : Bytes) us0 a0, Syn .ref us0 a0 → Syn .ref (us0 ++ (.paropen, v) :: (us ++ [(.parclose, w)])) (.call a0 a)) := by
      rcases q with ⟨_, rfl⟩ | ⟨us, rest, a, rfl, h3, hs, hd, _⟩
      · exact ⟨[], r, .noArg, rfl, h2, did_noArg _, fun w v us0 a0 k => .call0 k⟩
      · exact ⟨us, rest, a, rfl, h3, hd, fun w v us0 a0 k => .call k hs⟩
    obtain ⟨us, rest, a, rfl, h3, hd, hs⟩ := q'
    refine wp_take h3 (by decide) fun p4 w r4 hr h4 hc4 _ => ?_
    subst hr
    have tl : ∀ p5 sv, At p5 r4 → cs p5 = cs p4 → Wp (R (.idrefRest lv (-2) false sv)) p5
        (Post (.idrefRest lv info glob saved) ((.paropen, p.tok.value) :: (us ++ (.parclose, w) :: r4)) p) := by
      intro p5 sv h5 hc5
      refine wp_last ih _ h5 (by simp) (by fuel) fun _ p6 q => ?_
      intro c0 us0 a0 k1 k2 _
      have hd : Did (.call a0 a) c0 (cs p5) := by
        rw [hc5, hc4]
        refine k2.call ?_
        rw [← hc1, ← hc2]
        exact hd
      obtain ⟨vs, rest, b, rfl, h6, hs, hd, kk⟩ := q c0 _ _ (hs w p.tok.value us0 a0 k1) hd (by simp [isCall])
      exact ⟨(.paropen, p.tok.value) :: (us ++ (.parclose, w) :: vs), rest, b, by simp, h6, by simpa using hs, hd, kk⟩
    refine wp_tok (wp_bind (wp_ite (fun _ => ?_) (fun _ => ?_)))
    · exact wp_of rfl rfl (wp_emit (tl _ _ h4 rfl))
    · exact wp_pure (wp_emit (tl _ _ h4 rfl))
  · have fin : ∀ p1, At p1 ts → cs p1 = cs p → Post (.idrefRest lv info glob saved) ts p ⟨0, info, glob⟩ p1 := by
      intro p1 h1 hc c0 us0 a0 k1 k2 k3
      rw [← hc] at k2
      exact ⟨[], ts, a0, rfl, h1, by simpa using k1, k2, k3⟩
    refine wp_ite (fun _ => ?_) (fun _ => ?_)
    · refine wp_load h fun p1 h1 hc1 ht1 => ?_
      exact wp_step (a := ()) rfl rfl (wp_pure (fin { p1 with code := saved ++ p1.code } h1 hc1))
    · exact wp_step (a := ()) rfl rfl (wp_pure (fin { p with code := saved ++ p.code } h rfl))

theorem wp_idref {lv : Bool} (ih : Sound R n) (h : At p ts) (hn : need (.idref lv) ts < n + 1) : Wp (body R (.idref lv)) p (Post (.idref lv) ts p) := by
  simp only [body]
  refine wp_expect fun e => wp_tok (wp_ask ?_)
  have tl : ∀ p1, At p1 ts → cs p1 = known p.tok.value (cs p) → p1.tok = p.tok →
      Wp (ask (fun q => lookup p.tok.value q.symstack) >>= fun s => match s with
        | none => fun _ => .ub
        | some s => Parser.fetch >>= fun _ => bufPush >>= fun saved => R (.idrefRest lv s.pos s.global saved)) p1 (Post (.idref lv) ts p) := by
    intro p1 h1 hc1 ht1
    refine wp_ask ?_
    have hl := lookup_known p.tok.value (c := cs p) h.syms
    rw [← hc1] at hl
    rw [show lookup p.tok.value p1.symstack = some (symOf p.tok.value (cs p)) from hl]
    refine wp_fetch h1 (by rw [ht1, e]; decide) fun p2 r hts h2 hc2 _ => ?_
    rw [ht1, e] at hts
    subst hts
    refine wp_step (a := p2.code) (p' := { p2 with code := [] }) rfl rfl ?_
    refine wp_last (ts := r) ih _ h2 (by simp) (by fuel) fun _ p5 q => ?_
    have hd : Did (.id p.tok.value) (cs p) (cs { p2 with code := [] }) := by
      have := did_id p.tok.value (cs p)
      rw [← hc1, ← hc2] at this
      exact this
    obtain ⟨vs, rest, b, rfl, h5, hs, hd, kk⟩ := q (cs p) _ _ (.id (x := p.tok.value)) hd (by
      constructor
      · intro k
        have : (0 : Int) ≤ ((symOf p.tok.value (cs p)).pos : Int) := Int.natCast_nonneg _
        omega
      · intro k
        cases k)
    exact ⟨(.id, p.tok.value) :: vs, rest, b, rfl, h5, hs, hd, kk⟩
  refine wp_ite (fun e1 => ?_) (fun e1 => ?_)
  · refine wp_step (a := ()) (x := symAdd p.tok.value true) rfl rfl (tl _ ?_ ?_ rfl)
    · refine h.alike rfl rfl ?_
      have : (addGlobal p.tok.value (cs p)).symstack ≠ [] := by
        intro k
        have l1 := addGlobal_len p.tok.value (cs p)
        rw [k] at l1
        exact h.syms (List.eq_nil_of_length_eq_zero l1.symm)
      exact this
    · unfold known
      rw [if_pos (show lookup p.tok.value (cs p).symstack = none from e1)]
      rfl
  · refine tl _ h ?_ rfl
    unfold known
    rw [if_neg (show ¬ lookup p.tok.value (cs p).symstack = none from e1)]

theorem wp_operand (ih : Sound R n) (h : At p ts) (hn : need .operand ts < n + 1) : Wp (body R .operand) p (Post .operand ts p) := by
  simp only [body]
  refine wp_tok (wp_ite (fun e => ?_) (fun _ => wp_ite (fun e => ?_) (fun _ => wp_ite (fun e => ?_) (fun _ => wp_ite (fun e => ?_) (fun _ =>
    wp_ite (fun e => ?_) (fun _ => wp_ite (fun e => ?_) (fun _ => ?_)))))))
  · refine wp_ask (wp_emit ?_)
    refine wp_last (ts := ts) ih .lambda h (by simp) (by fuel) fun _ p2 q => ?_
    obtain ⟨us, rest, a, e1, h2, hs, hd, _⟩ := q
    exact ⟨false, us, rest, a, e1, h2, hs, hd, by simp⟩
  · refine wp_emit (wp_fetch (ts := ts) (p := emitted _ p) h (show p.tok.type ≠ .eof by rw [e]; decide) fun p1 r hts h1 hc _ => wp_done ?_)
    replace hts : ts = (p.tok.type, p.tok.value) :: r := hts
    rw [e] at hts
    subst hts
    exact ⟨false, [(.nil, p.tok.value)], r, .nil, rfl, h1, .nil, ⟨_, rfl, hc.symm⟩, by simp⟩
  · refine wp_emit (wp_fetch (ts := ts) (p := emitted _ p) h (show p.tok.type ≠ .eof by rw [e]; decide) fun p1 r hts h1 hc _ => wp_done ?_)
    replace hts : ts = (p.tok.type, p.tok.value) :: r := hts
    rw [e] at hts
    subst hts
    exact ⟨false, [(.const, p.tok.value)], r, .num p.tok.value, rfl, h1, .num, ⟨_, rfl, hc.symm⟩, by simp⟩
  · refine wp_step (a := (stringAdd p.strings p.tok.value).2) (p' := { p with strings := (stringAdd p.strings p.tok.value).1 }) rfl rfl ?_
    refine wp_emit (wp_fetch (ts := ts) (p := emitted _ { p with strings := (stringAdd p.strings p.tok.value).1 }) h (show p.tok.type ≠ .eof by rw [e]; decide)
      fun p1 r hts h1 hc _ => wp_done ?_)
    replace hts : ts = (p.tok.type, p.tok.value) :: r := hts
    rw [e] at hts
    subst hts
    exact ⟨false, [(.string, p.tok.value)], r, .str p.tok.value, rfl, h1, .str, ⟨_, rfl, hc.symm⟩, by simp⟩
  · refine wp_fetch h (by rw [e]; decide) fun p1 r hts h1 hc _ => ?_
    rw [e] at hts
    subst hts
    refine wp_call ih .cond h1 (by simp) (by fuel) fun _ p2 q => ?_
    obtain ⟨us, rest, a, rfl, h2, hs, hd, _⟩ := q
    refine wp_take h2 (by decide) fun p3 w r3 hr h3 hc3 _ => wp_done ?_
    subst hr
    rw [hc] at hd
    exact ⟨false, (.paropen, p.tok.value) :: (us ++ [(TT.parclose, w)]), r3, a, by simp, h3, .par (ts := us) hs, hc3 ▸ hd, by simp⟩
  · refine wp_fetch h (by rw [e]; decide) fun p1 r hts h1 hc hok => ?_
    rw [e] at hts hok
    subst hts
    have hv : p.tok.value = [43] ∨ p.tok.value = [45] := by
      obtain ⟨o, ho⟩ := hok
      generalize p.tok.value = v at ho
      cases ho
      · exact Or.inl rfl
      · exact Or.inr rfl
    refine wp_tok (wp_ite (fun e1 => ?_) (fun e1 => ?_))
    · refine wp_emit (wp_fetch (ts := r) (p := emitted _ p1) h1 (show p1.tok.type ≠ .eof by rw [e1]; decide) fun p2 r2 hr h2 hc2 _ => wp_done ?_)
      replace hr : r = (p1.tok.type, p1.tok.value) :: r2 := hr
      rw [e1] at hr
      subst hr
      have hc' : cs p = cs p2 := hc.symm.trans hc2.symm
      rcases hv with hv | hv
      · rw [hv]
        exact ⟨false, [(.addsub, [43]), (.const, p1.tok.value)], r2, .num (43 :: p1.tok.value), rfl, h2, .signed (Or.inl rfl), ⟨_, rfl, hc'⟩, by simp⟩
      · rw [hv]
        exact ⟨false, [(.addsub, [45]), (.const, p1.tok.value)], r2, .num (45 :: p1.tok.value), rfl, h2, .signed (Or.inr rfl), ⟨_, rfl, hc'⟩, by simp⟩
    · refine wp_call ih .power h1 (by simp) (by fuel) fun _ p2 q => ?_
      obtain ⟨us, rest, a, rfl, h2, hs, hd, hk⟩ := q
      rw [hc] at hd
      have hh : ∀ v, us.head? ≠ some (.const, v) := by
        intro v hu
        obtain ⟨r', hr⟩ := h1.cons
        cases us with
        | nil => cases hu
        | cons u us =>
          simp only [List.head?_cons, Option.some.injEq] at hu
          subst hu
          rw [List.cons_append, List.cons.injEq, Prod.mk.injEq] at hr
          exact e1 hr.1.1.symm
      rcases hv with hv | hv
      · rw [hv]
        have fin : Post .operand ((.addsub, [43]) :: (us ++ rest)) p ⟨0, 0, false⟩ p2 := ⟨true, (.addsub, [43]) :: us, rest, a, rfl, h2, .plus hs hh, hd, fun _ => hk⟩
        exact wp_ite (fun _ => wp_emit (wp_done fin)) (fun _ => wp_done fin)
      · rw [hv]
        have fin : Post .operand ((.addsub, [45]) :: (us ++ rest)) p ⟨0, 0, false⟩ p2 := ⟨true, (.addsub, [45]) :: us, rest, _, rfl, h2, .minus hs hh, hd.un, fun _ => hk⟩
        exact wp_ite (fun _ => wp_emit (wp_done fin)) (fun _ => wp_done fin)
  · refine wp_call ih (.idref false) h (by simp) (by fuel) fun _ p2 q => wp_done ?_
    obtain ⟨us, rest, a, e1, h2, hs, hd, _⟩ := q
    exact ⟨false, us, rest, a, e1, h2, .ref hs, hd, by simp⟩

end

end Buzz.Accept
