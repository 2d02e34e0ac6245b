import Verif.CompProof

/-
The parsing functions of expressions.
-/
namespace Buzz.Comp

open Buzz.Msg Buzz.Lex Buzz.Parser Buzz.Lang Buzz.Debug
open Buzz.VM (Bin Un)

/-! ### First tokens -/

/-- The types of token a phrase starts with. -/
def heads : Cat → List TT
  | .cond => [.lnot, .blockopen, .bnot, .fun_, .nil, .const, .string, .paropen, .addsub, .id]
  | .logic | .cmp | .expr => [.blockopen, .bnot, .fun_, .nil, .const, .string, .paropen, .addsub, .id]
  | .sum | .prod | .modu | .pow | .shift _ | .andor _ | .bnot _ => [.bnot, .fun_, .nil, .const, .string, .paropen, .addsub, .id]
  | .opnd _ => [.fun_, .nil, .const, .string, .paropen, .addsub, .id]
  | .ref => [.id]
  | .args => [.lnot, .blockopen, .bnot, .fun_, .nil, .const, .string, .paropen, .addsub, .id]
  | .table => [.dot]
  | .simple => [.return_, .id]
  | .stat | .sub | .stats => [.return_, .id, .var, .fun_, .if_, .for_, .while_]
  | .blk => [.blockopen]

/-- A phrase starts with one of its first tokens. -/
def Starts (l : List TT) (ts : List T2) : Prop := ∃ t v r, ts = (t, v) :: r ∧ t ∈ l

theorem Starts.app {l : List TT} {ts : List T2} (h : Starts l ts) (us : List T2) : Starts l (ts ++ us) := by
  obtain ⟨t, v, r, rfl, h⟩ := h
  exact ⟨t, v, r ++ us, rfl, h⟩

theorem Starts.mono {l k : List TT} {ts : List T2} (h : Starts l ts) (hl : ∀ t ∈ l, t ∈ k) : Starts k ts := by
  obtain ⟨t, v, r, rfl, h⟩ := h
  exact ⟨t, v, r, rfl, hl t h⟩

theorem starts_cons {l : List TT} {t : TT} {v : Bytes} {r : List T2} (h : t ∈ l) : Starts l ((t, v) :: r) := ⟨t, v, r, rfl, h⟩

theorem Starts.nxt {l : List TT} {ts us : List T2} {bad : List TT} (h : Starts l ts) (hb : ∀ t ∈ l, t ∉ bad) : Nxt bad (ts ++ us) := by
  obtain ⟨t, v, r, rfl, h⟩ := h
  exact ⟨t, v, r ++ us, rfl, hb t h⟩

theorem Starts.view {l : List TT} {ts us : List T2} {p : P} (h : Starts l ts) (hv : View p (ts ++ us)) : p.tok.type ∈ l := by
  obtain ⟨t, v, r, rfl, h⟩ := h
  rw [View.type (r := r ++ us) hv]
  exact h

theorem _root_.Buzz.Lang.Syn.starts {c : Cat} {ts : List T2} {a : Ast} (h : Syn c ts a) (hc : c ≠ .sub) (hc' : c ≠ .stats) : Starts (heads c) ts := by
  induction h with
  | not _ _ => exact starts_cons (by decide)
  | cond _ ih => exact (ih (by decide) (by decide)).mono (by decide)
  | logic1 _ ih => exact (ih (by decide) (by decide)).mono (by decide)
  | logic _ _ _ ih _ => exact (ih (by decide) (by decide)).app _
  | cmp1 _ ih => exact (ih (by decide) (by decide)).mono (by decide)
  | cmp _ _ _ ih _ => exact (ih (by decide) (by decide)).app _
  | tab0 => exact starts_cons (by decide)
  | tab _ _ => exact starts_cons (by decide)
  | entry1 _ _ _ => exact starts_cons (by decide)
  | entry _ _ _ ih _ => exact (ih (by decide) (by decide)).app _
  | expr _ ih => exact (ih (by decide) (by decide)).mono (by decide)
  | sum1 _ ih => exact (ih (by decide) (by decide)).mono (by decide)
  | sum _ _ _ ih _ => exact (ih (by decide) (by decide)).app _
  | prod1 _ ih => exact (ih (by decide) (by decide)).mono (by decide)
  | prod _ _ _ ih _ => exact (ih (by decide) (by decide)).app _
  | modu1 _ ih => exact (ih (by decide) (by decide)).mono (by decide)
  | modu _ _ _ ih _ => exact (ih (by decide) (by decide)).app _
  | pow1 _ ih => exact (ih (by simp) (by simp)).mono (by simp [heads])
  | pow _ _ _ ih _ => exact (ih (by simp) (by simp)).app _
  | shift1 _ ih => exact (ih (by simp) (by simp)).mono (by simp [heads])
  | shift _ _ _ ih _ => exact (ih (by simp) (by simp)).app _
  | andor1 _ ih => exact (ih (by simp) (by simp)).mono (by simp [heads])
  | andor _ _ _ ih _ => exact (ih (by simp) (by simp)).app _
  | bnot _ _ => exact starts_cons (by simp [heads])
  | opnd _ ih => exact (ih (by simp) (by simp)).mono (by simp [heads])
  | lam _ _ _ => exact starts_cons (by decide)
  | nil => exact starts_cons (by decide)
  | num => exact starts_cons (by decide)
  | str => exact starts_cons (by decide)
  | par _ _ => exact starts_cons (by decide)
  | signed _ => exact starts_cons (by decide)
  | plus _ _ _ => exact starts_cons (by decide)
  | minus _ _ _ => exact starts_cons (by decide)
  | ref _ ih => exact (ih (by simp) (by simp)).mono (by simp [heads])
  | id => exact starts_cons (by decide)
  | field _ ih => exact (ih (by decide) (by decide)).app _
  | index _ _ ih _ => exact (ih (by decide) (by decide)).app _
  | call0 _ ih => exact (ih (by decide) (by decide)).app _
  | call _ _ ih _ => exact (ih (by decide) (by decide)).app _
  | arg1 _ ih => exact ih (by decide) (by decide)
  | arg _ _ ih _ => exact (ih (by decide) (by decide)).app _
  | ret0 => exact starts_cons (by decide)
  | ret _ _ => exact starts_cons (by decide)
  | assign _ _ _ ih _ => exact ((ih (by decide) (by decide)).mono (by decide)).app _
  | run _ ih => exact (ih (by decide) (by decide)).mono (by decide)
  | simple _ ih => exact (ih (by decide) (by decide)).mono (by decide)
  | decl => exact starts_cons (by decide)
  | init _ _ => exact starts_cons (by decide)
  | func _ _ _ => exact starts_cons (by decide)
  | funcDoc _ _ _ => exact starts_cons (by decide)
  | ifs _ _ _ _ => exact starts_cons (by decide)
  | ite _ _ _ _ _ _ _ _ => exact starts_cons (by decide)
  | while_ _ _ _ _ => exact starts_cons (by decide)
  | for_ _ _ _ _ _ _ _ _ _ _ => exact starts_cons (by decide)
  | sub _ _ => exact absurd rfl hc
  | subBlk _ _ => exact absurd rfl hc
  | sub0 => exact absurd rfl hc
  | stats0 => exact absurd rfl hc'
  | stats _ _ _ _ _ => exact absurd rfl hc'
  | blk _ _ => exact starts_cons (by decide)

/-! ### Claims -/

def b0 : List TT := [.dot, .idxopen, .paropen]
def bAO : List TT := [.dot, .idxopen, .paropen, .bandor]
def bSh : List TT := [.dot, .idxopen, .paropen, .bandor, .lrshift]
def bPow : List TT := [.dot, .idxopen, .paropen, .bandor, .lrshift, .pow]
def bMod : List TT := [.dot, .idxopen, .paropen, .bandor, .lrshift, .pow, .mod]
def bProd : List TT := [.dot, .idxopen, .paropen, .bandor, .lrshift, .pow, .mod, .muldiv]
def bExpr : List TT := [.dot, .idxopen, .paropen, .bandor, .lrshift, .pow, .mod, .muldiv, .addsub]
def bCmp : List TT := [.dot, .idxopen, .paropen, .bandor, .lrshift, .pow, .mod, .muldiv, .addsub, .cmp]
def bCond : List TT := [.dot, .idxopen, .paropen, .bandor, .lrshift, .pow, .mod, .muldiv, .addsub, .cmp, .landor]

/-- The phrase is taken by `nt` when none of `bad` follows, and compiled by `x`. -/
def Full (nt : NT) (bad : List TT) (x : C) (ts : List T2) : Prop :=
  ∀ p rest o Q, View p (ts ++ rest) → Nxt bad rest → (cs p).symstack ≠ [] → x (cs p) = some o →
    (∀ r p', View p' rest → Go p p' o → Q r p') → Can (fun R => R nt) p Q

/-- After the phrase, `nt` is in its loop `rest`. -/
def Pre (nt loop : NT) (bad : List TT) (x : C) (ts : List T2) : Prop :=
  ∀ p rest o Q, View p (ts ++ rest) → Nxt bad rest → (cs p).symstack ≠ [] → x (cs p) = some o →
    (∀ p', View p' rest → Go p p' o → Can (fun R => R loop) p' Q) → Can (fun R => R nt) p Q

/-- A loop ends when its operator does not follow. -/
theorem Pre.full {nt loop : NT} {bad bad' : List TT} {x : C} {ts : List T2} (h : Pre nt loop bad x ts) (hb : ∀ t ∈ bad, t ∈ bad')
    (hl : ∀ p (Q : Ret → P → Prop), p.tok.type ∉ bad' → (∀ r, Q r p) → Can (fun R => R loop) p Q) : Full nt bad' x ts := by
  intro p rest o Q hv hn hs hx k
  exact h p rest o Q hv (hn.mono hb) hs hx fun p' hv' hg => hl p' Q (hv'.nxt hn) (fun r => k r p' hv' hg)

theorem condRest_end (p : P) (Q : Ret → P → Prop) (h : p.tok.type ∉ bCond) (k : ∀ r, Q r p) : Can (fun R => R .condRest) p Q := by
  refine can_rec ?_
  simp only [body]
  exact can_tok (can_neg (fun e => h (by rw [e]; decide)) (can_done (k _)))

theorem sumRest_end (p : P) (Q : Ret → P → Prop) (h : p.tok.type ∉ bExpr) (k : ∀ r, Q r p) : Can (fun R => R .sumRest) p Q := by
  refine can_rec ?_
  simp only [body]
  exact can_tok (can_neg (fun e => h (by rw [e]; decide)) (can_done (k _)))

theorem prodRest_end (p : P) (Q : Ret → P → Prop) (h : p.tok.type ∉ bProd) (k : ∀ r, Q r p) : Can (fun R => R .prodRest) p Q := by
  refine can_rec ?_
  simp only [body]
  exact can_tok (can_neg (fun e => h (by rw [e]; decide)) (can_done (k _)))

theorem modRest_end (p : P) (Q : Ret → P → Prop) (h : p.tok.type ∉ bMod) (k : ∀ r, Q r p) : Can (fun R => R .modRest) p Q := by
  refine can_rec ?_
  simp only [body]
  exact can_tok (can_neg (fun e => h (by rw [e]; decide)) (can_done (k _)))

theorem shiftRest_end (p : P) (Q : Ret → P → Prop) (h : .lrshift ≠ p.tok.type) (k : ∀ r, Q r p) : Can (fun R => R .shiftRest) p Q := by
  refine can_rec ?_
  simp only [body]
  exact can_tok (can_neg (fun e => h e.symm) (can_done (k _)))

theorem andorRest_end (p : P) (Q : Ret → P → Prop) (h : .bandor ≠ p.tok.type) (k : ∀ r, Q r p) : Can (fun R => R .andorRest) p Q := by
  refine can_rec ?_
  simp only [body]
  exact can_tok (can_neg (fun e => h e.symm) (can_done (k _)))

/-- The code of a binary operation. -/
theorem bin_some {o : Bin} {a b : Ast} {m : Mode} {c : CS} {r : Out} (h : comp (.bin o a b) m c = some r) :
    ∃ x y, comp a .val c = some x ∧ comp b .val x.cs = some y ∧ r = ⟨x.code ++ y.code ++ [.op (binOp o)], x.news ++ y.news, y.cs⟩ := by
  obtain ⟨u, v, h1, h2, rfl⟩ := seq_some h
  obtain ⟨x, y, h3, h4, rfl⟩ := seq_some h1
  cases h2
  exact ⟨x, y, h3, h4, by simp⟩

theorem un_some {o : Un} {a : Ast} {m : Mode} {c : CS} {r : Out} (h : comp (.un o a) m c = some r) :
    ∃ x, comp a .val c = some x ∧ r = ⟨x.code ++ [.op (unOp o)], x.news, x.cs⟩ := by
  obtain ⟨u, v, h1, h2, rfl⟩ := seq_some h
  cases h2
  exact ⟨u, h1, by simp⟩

/-- An operator taken in a loop. -/
theorem Pre.op {nt loop sub : NT} {bad : List TT} {bad1 : List TT} {o : Bin} {a b : Ast} {ts us : List T2} {t : T2}
    (h : Pre nt loop bad1 (comp a .val) ts) (hb : Full sub bad (comp b .val) us) (ht : t.1 ∉ bad1) (hus : us ≠ [])
    (hl : ∀ p rest (Q : Ret → P → Prop), View p (t :: (us ++ rest)) →
      (∀ p1, View p1 (us ++ rest) → Same p p1 →
        Can (fun R => R sub) p1 (fun _ p2 => Can (fun R => R loop) (emitted (.op (binOp o)) p2) Q)) → Can (fun R => R loop) p Q) :
    Pre nt loop bad (comp (.bin o a b) .val) (ts ++ t :: us) := by
  intro p rest r Q hv hn hs hx k
  obtain ⟨x, y, h1, h2, rfl⟩ := bin_some hx
  rw [List.append_assoc] at hv
  refine h p (t :: us ++ rest) x Q hv ⟨t.1, t.2, us ++ rest, rfl, ht⟩ hs h1 fun p1 hv1 g1 => ?_
  refine hl p1 rest Q hv1 fun p2 hv2 s2 => ?_
  have e2 : cs p2 = x.cs := by rw [s2.cs, g1.cs]
  refine hb p2 rest y _ hv2 hn (by rw [e2]; exact comp_ne h1 hs) (by rw [e2]; exact h2) fun r3 p3 hv3 g3 => ?_
  exact k _ hv3.emitted ((g1.same s2).trans g3).emitted

theorem ne_nil {l : List TT} {ts : List T2} (h : Starts l ts) : ts ≠ [] := by
  obtain ⟨t, v, r, rfl, h⟩ := h
  simp

theorem ne_app {ts us : List T2} (h : us ≠ []) : ts ++ us ≠ [] := by simp [h]

theorem ne_app' {ts us : List T2} (h : ts ≠ []) : ts ++ us ≠ [] := by simp [h]

theorem pre_logic {o : Bin} {a b : Ast} {ts us : List T2} {t : T2} {bad : List TT} (h : Pre .cond .condRest bCmp (comp a .val) ts) (ht : BinTok .logic t o)
    (hb : Full .cmp bad (comp b .val) us) (hus : us ≠ []) : Pre .cond .condRest bad (comp (.bin o a b) .val) (ts ++ t :: us) := by
  refine h.op hb (by cases ht <;> decide) hus fun p rest Q hv k => ?_
  refine can_rec ?_
  simp only [body]
  cases ht
  · refine can_tok (can_pos hv.type (can_fetch hv (ne_app' hus) fun p1 hv1 s1 => can_bind ?_))
    obtain ⟨r, p2, e, c⟩ := k p1 hv1 s1
    exact ⟨r, p2, e, can_pos (by rw [hv.value]) (can_emit c)⟩
  · refine can_tok (can_pos hv.type (can_fetch hv (ne_app' hus) fun p1 hv1 s1 => can_bind ?_))
    obtain ⟨r, p2, e, c⟩ := k p1 hv1 s1
    exact ⟨r, p2, e, can_neg (by rw [hv.value]; decide) (can_pos (by rw [hv.value]) (can_emit c))⟩

theorem pre_sum {o : Bin} {a b : Ast} {ts us : List T2} {t : T2} {bad : List TT} (h : Pre .expr .sumRest bProd (comp a .val) ts) (ht : BinTok .sum t o)
    (hb : Full .prod bad (comp b .val) us) (hus : us ≠ []) : Pre .expr .sumRest bad (comp (.bin o a b) .val) (ts ++ t :: us) := by
  refine h.op hb (by cases ht <;> decide) hus fun p rest Q hv k => ?_
  refine can_rec ?_
  simp only [body]
  cases ht
  · refine can_tok (can_pos hv.type (can_fetch hv (ne_app' hus) fun p1 hv1 s1 => can_bind ?_))
    obtain ⟨r, p2, e, c⟩ := k p1 hv1 s1
    exact ⟨r, p2, e, can_pos (by rw [hv.value]; rfl) (can_emit c)⟩
  · refine can_tok (can_pos hv.type (can_fetch hv (ne_app' hus) fun p1 hv1 s1 => can_bind ?_))
    obtain ⟨r, p2, e, c⟩ := k p1 hv1 s1
    exact ⟨r, p2, e, can_neg (by rw [hv.value]; decide) (can_pos (by rw [hv.value]; rfl) (can_emit c))⟩

theorem pre_prod {o : Bin} {a b : Ast} {ts us : List T2} {t : T2} {bad : List TT} (h : Pre .prod .prodRest bMod (comp a .val) ts) (ht : BinTok .prod t o)
    (hb : Full .modulo bad (comp b .val) us) (hus : us ≠ []) : Pre .prod .prodRest bad (comp (.bin o a b) .val) (ts ++ t :: us) := by
  refine h.op hb (by cases ht <;> decide) hus fun p rest Q hv k => ?_
  refine can_rec ?_
  simp only [body]
  cases ht
  · refine can_tok (can_pos hv.type (can_fetch hv (ne_app' hus) fun p1 hv1 s1 => can_bind ?_))
    obtain ⟨r, p2, e, c⟩ := k p1 hv1 s1
    exact ⟨r, p2, e, can_pos (by rw [hv.value]; rfl) (can_emit c)⟩
  · refine can_tok (can_pos hv.type (can_fetch hv (ne_app' hus) fun p1 hv1 s1 => can_bind ?_))
    obtain ⟨r, p2, e, c⟩ := k p1 hv1 s1
    exact ⟨r, p2, e, can_neg (by rw [hv.value]; decide) (can_pos (by rw [hv.value]; rfl) (can_emit c))⟩

theorem pre_modu {o : Bin} {a b : Ast} {ts us : List T2} {t : T2} {bad : List TT} (h : Pre .modulo .modRest bPow (comp a .val) ts) (ht : BinTok .modu t o)
    (hb : Full .power bad (comp b .val) us) (hus : us ≠ []) : Pre .modulo .modRest bad (comp (.bin o a b) .val) (ts ++ t :: us) := by
  refine h.op hb (by cases ht <;> decide) hus fun p rest Q hv k => ?_
  refine can_rec ?_
  simp only [body]
  cases ht
  · refine can_tok (can_pos hv.type (can_fetch hv (ne_app' hus) fun p1 hv1 s1 => can_bind ?_))
    obtain ⟨r, p2, e, c⟩ := k p1 hv1 s1
    exact ⟨r, p2, e, can_emit c⟩

theorem pre_shift {o : Bin} {a b : Ast} {ts us : List T2} {t : T2} {bad : List TT} (h : Pre .shift .shiftRest bAO (comp a .val) ts) (ht : BinTok (.shift false) t o)
    (hb : Full .andor bad (comp b .val) us) (hus : us ≠ []) : Pre .shift .shiftRest bad (comp (.bin o a b) .val) (ts ++ t :: us) := by
  refine h.op hb (by cases ht <;> decide) hus fun p rest Q hv k => ?_
  refine can_rec ?_
  simp only [body]
  cases ht
  · refine can_tok (can_pos hv.type (can_fetch hv (ne_app' hus) fun p1 hv1 s1 => can_bind ?_))
    obtain ⟨r, p2, e, c⟩ := k p1 hv1 s1
    exact ⟨r, p2, e, can_pos (by rw [hv.value]; rfl) (can_emit c)⟩
  · refine can_tok (can_pos hv.type (can_fetch hv (ne_app' hus) fun p1 hv1 s1 => can_bind ?_))
    obtain ⟨r, p2, e, c⟩ := k p1 hv1 s1
    exact ⟨r, p2, e, can_neg (by rw [hv.value]; decide) (can_pos (by rw [hv.value]; rfl) (can_emit c))⟩

theorem pre_andor {o : Bin} {a b : Ast} {ts us : List T2} {t : T2} {bad : List TT} (h : Pre .andor .andorRest b0 (comp a .val) ts) (ht : BinTok (.andor false) t o)
    (hb : Full .bnot bad (comp b .val) us) (hus : us ≠ []) : Pre .andor .andorRest bad (comp (.bin o a b) .val) (ts ++ t :: us) := by
  refine h.op hb (by cases ht <;> decide) hus fun p rest Q hv k => ?_
  refine can_rec ?_
  simp only [body]
  cases ht
  · refine can_tok (can_pos hv.type (can_fetch hv (ne_app' hus) fun p1 hv1 s1 => can_bind ?_))
    obtain ⟨r, p2, e, c⟩ := k p1 hv1 s1
    exact ⟨r, p2, e, can_pos (by rw [hv.value]; rfl) (can_emit c)⟩
  · refine can_tok (can_pos hv.type (can_fetch hv (ne_app' hus) fun p1 hv1 s1 => can_bind ?_))
    obtain ⟨r, p2, e, c⟩ := k p1 hv1 s1
    exact ⟨r, p2, e, can_neg (by rw [hv.value]; decide) (can_pos (by rw [hv.value]; rfl) (can_emit c))⟩

/-! ### The first operand of a loop -/

theorem pre_logic1 {x : C} {ts : List T2} (h : Full .cmp bCmp x ts) (hs : Starts (heads .cmp) ts) : Pre .cond .condRest bCmp x ts := by
  intro p rest o Q hv hn hne hx k
  refine can_rec ?_
  simp only [body]
  refine can_tok (can_neg (fun e => ?_) (can_bind (h p rest o _ hv hn hne hx fun r p' hv' hg => k p' hv' hg)))
  have := hs.view hv
  rw [e] at this
  revert this
  decide

theorem pre_sum1 {x : C} {ts : List T2} (h : Full .prod bProd x ts) (hs : Starts (heads .sum) ts) : Pre .expr .sumRest bProd x ts := by
  intro p rest o Q hv hn hne hx k
  refine can_rec ?_
  simp only [body]
  refine can_tok (can_neg (fun e => ?_) (can_bind (h p rest o _ hv hn hne hx fun r p' hv' hg => k p' hv' hg)))
  have := hs.view hv
  rw [e] at this
  revert this
  decide

theorem pre_prod1 {x : C} {ts : List T2} (h : Full .modulo bMod x ts) : Pre .prod .prodRest bMod x ts := by
  intro p rest o Q hv hn hne hx k
  refine can_rec ?_
  simp only [body]
  exact can_bind (h p rest o _ hv hn hne hx fun r p' hv' hg => k p' hv' hg)

theorem pre_modu1 {x : C} {ts : List T2} (h : Full .power bPow x ts) : Pre .modulo .modRest bPow x ts := by
  intro p rest o Q hv hn hne hx k
  refine can_rec ?_
  simp only [body]
  exact can_bind (h p rest o _ hv hn hne hx fun r p' hv' hg => k p' hv' hg)

theorem pre_shift1 {bad : List TT} {x : C} {ts : List T2} (h : Full .andor bad x ts) : Pre .shift .shiftRest bad x ts := by
  intro p rest o Q hv hn hne hx k
  refine can_rec ?_
  simp only [body]
  exact can_bind (h p rest o _ hv hn hne hx fun r p' hv' hg => k p' hv' hg)

theorem pre_andor1 {bad : List TT} {x : C} {ts : List T2} (h : Full .bnot bad x ts) : Pre .andor .andorRest bad x ts := by
  intro p rest o Q hv hn hne hx k
  refine can_rec ?_
  simp only [body]
  exact can_bind (h p rest o _ hv hn hne hx fun r p' hv' hg => k p' hv' hg)

/-! ### Conditions, comparisons, powers, `!` -/

theorem full_not {a : Ast} {v : Bytes} {ts : List T2} (h : Full .cond bCond (comp a .val) ts) (hts : ts ≠ []) :
    Full .cond bCond (comp (.un .lnot a) .val) ((.lnot, v) :: ts) := by
  intro p rest o Q hv hn hne hx k
  obtain ⟨x, h1, rfl⟩ := un_some hx
  refine can_rec ?_
  simp only [body]
  refine can_tok (can_pos hv.type (can_fetch hv (ne_app' hts) fun p1 hv1 s1 => can_bind ?_))
  refine h p1 rest x _ hv1 hn (by rw [s1.cs]; exact hne) (by rw [s1.cs]; exact h1) fun r p2 hv2 g2 => ?_
  exact can_emit (can_done (k _ _ hv2.emitted (s1.then g2).emitted))

theorem full_bnot {a : Ast} {v : Bytes} {bad : List TT} {ts : List T2} (h : Full .bnot bad (comp a .val) ts) (hts : ts ≠ []) :
    Full .bnot bad (comp (.un .bnot a) .val) ((.bnot, v) :: ts) := by
  intro p rest o Q hv hn hne hx k
  obtain ⟨x, h1, rfl⟩ := un_some hx
  refine can_rec ?_
  simp only [body]
  refine can_tok (can_pos hv.type (can_fetch hv (ne_app' hts) fun p1 hv1 s1 => can_bind ?_))
  refine h p1 rest x _ hv1 hn (by rw [s1.cs]; exact hne) (by rw [s1.cs]; exact h1) fun r p2 hv2 g2 => ?_
  exact can_emit (can_done (k _ _ hv2.emitted (s1.then g2).emitted))

theorem full_opnd {x : C} {bad : List TT} {ts : List T2} (h : Full .operand bad x ts) (hs : Starts (heads (.opnd false)) ts) : Full .bnot bad x ts := by
  intro p rest o Q hv hn hne hx k
  refine can_rec ?_
  simp only [body]
  refine can_tok (can_neg (fun e => ?_) (h p rest o Q hv hn hne hx k))
  have := hs.view hv
  rw [e] at this
  revert this
  decide

theorem full_cmp1 {x : C} {ts : List T2} (h : Full .expr bExpr x ts) : Full .cmp bCmp x ts := by
  intro p rest o Q hv hn hne hx k
  refine can_rec ?_
  simp only [body]
  refine can_bind (h p rest o _ hv (hn.mono (by decide)) hne hx fun r p1 hv1 g1 => ?_)
  refine can_tok (can_neg (fun e => ?_) (can_done (k _ _ hv1 g1)))
  have := hv1.nxt hn
  rw [e] at this
  revert this
  decide

theorem full_cmp {o : Bin} {a b : Ast} {ts us : List T2} {t : T2} (ha : Full .expr bExpr (comp a .val) ts) (ht : BinTok .cmp t o)
    (hb : Full .expr bExpr (comp b .val) us) (hus : us ≠ []) : Full .cmp bCmp (comp (.bin o a b) .val) (ts ++ t :: us) := by
  intro p rest r Q hv hn hne hx k
  obtain ⟨x, y, h1, h2, rfl⟩ := bin_some hx
  rw [List.append_assoc] at hv
  refine can_rec ?_
  simp only [body]
  refine can_bind (ha p (t :: us ++ rest) x _ hv ⟨t.1, t.2, us ++ rest, rfl, by cases ht <;> decide⟩ hne h1 fun r p1 hv1 g1 => ?_)
  have hty : p1.tok.type = .cmp := by cases ht <;> exact View.type (r := us ++ rest) hv1
  have hop : cmpOp p1.tok.value = some (binOp o) := by cases ht <;> (rw [View.value (r := us ++ rest) hv1]; decide)
  refine can_tok (can_pos hty (can_fetch hv1 (ne_app' hus) fun p2 hv2 s2 => can_bind ?_))
  have e2 : cs p2 = x.cs := by rw [s2.cs, g1.cs]
  refine hb p2 rest y _ hv2 (hn.mono (by decide)) (by rw [e2]; exact comp_ne h1 hne) (by rw [e2]; exact h2) fun r3 p3 hv3 g3 => ?_
  simp only [hop]
  exact can_emit (can_done (k _ _ hv3.emitted ((g1.same s2).trans g3).emitted))

theorem full_pow1 {x : C} {bad : List TT} {ts : List T2} (h : Full .shift bad x ts) (hb : ∀ t ∈ bad, t ∈ bPow) : Full .power bPow x ts := by
  intro p rest o Q hv hn hne hx k
  refine can_rec ?_
  simp only [body]
  refine can_bind (h p rest o _ hv (hn.mono hb) hne hx fun r p1 hv1 g1 => ?_)
  refine can_tok (can_neg (fun e => ?_) (can_done (k _ _ hv1 g1)))
  have := hv1.nxt hn
  rw [e] at this
  revert this
  decide

theorem full_pow {o : Bin} {a b : Ast} {ts us : List T2} {t : T2} (ha : Full .shift bSh (comp a .val) ts) (ht : BinTok .pow t o)
    (hb : Full .power bPow (comp b .val) us) (hus : us ≠ []) : Full .power bPow (comp (.bin o a b) .val) (ts ++ t :: us) := by
  intro p rest r Q hv hn hne hx k
  obtain ⟨x, y, h1, h2, rfl⟩ := bin_some hx
  rw [List.append_assoc] at hv
  cases ht
  refine can_rec ?_
  simp only [body]
  refine can_bind (ha p _ x _ hv ⟨_, _, us ++ rest, rfl, by decide⟩ hne h1 fun r p1 hv1 g1 => ?_)
  refine can_tok (can_pos (View.type (r := us ++ rest) hv1) (can_fetch hv1 (ne_app' hus) fun p2 hv2 s2 => can_bind ?_))
  have e2 : cs p2 = x.cs := by rw [s2.cs, g1.cs]
  refine hb p2 rest y _ hv2 hn (by rw [e2]; exact comp_ne h1 hne) (by rw [e2]; exact h2) fun r3 p3 hv3 g3 => ?_
  exact can_emit (can_done (k _ _ hv3.emitted ((g1.same s2).trans g3).emitted))

/-! ### Operands -/

theorem Full.mono {nt : NT} {bad bad' : List TT} {x : C} {ts : List T2} (h : Full nt bad x ts) (hb : ∀ t ∈ bad, t ∈ bad') : Full nt bad' x ts :=
  fun p rest o Q hv hn => h p rest o Q hv (hn.mono hb)

theorem full_nil {v : Bytes} : Full .operand b0 (comp .nil .val) [(.nil, v)] := by
  intro p rest o Q hv hn hne hx k
  cases hx
  refine can_rec ?_
  simp only [body]
  refine can_tok (can_neg (by rw [hv.type]; decide) (can_pos hv.type (can_emit (can_fetch hv.emitted hn.ne fun p1 hv1 s1 => ?_))))
  exact can_done (k _ _ hv1 (emitted_go.same s1))

theorem full_num {t : Bytes} : Full .operand b0 (comp (.num t) .val) [(.const, t)] := by
  intro p rest o Q hv hn hne hx k
  cases hx
  refine can_rec ?_
  simp only [body]
  refine can_tok (can_neg (by rw [hv.type]; decide) (can_neg (by rw [hv.type]; decide) (can_pos hv.type
    (can_emit (can_fetch hv.emitted hn.ne fun p1 hv1 s1 => ?_)))))
  refine can_done (k _ _ hv1 ?_)
  rw [hv.value] at s1
  exact emitted_go.same s1

/-- A string is added. -/
def strAdded (s : Bytes) (p : P) : P := { p with strings := (stringAdd p.strings s).1 }

theorem can_addStr {β : Type} {s : Bytes} {f : Nat → (NT → M Ret) → M β} {p : P} {Q : β → P → Prop} (h : Can (f (stringAdd p.strings s).2) (strAdded s p) Q) :
    Can (fun R => addStr s >>= fun a => f a R) p Q :=
  can_step rfl h

theorem View.strAdded {s : Bytes} {p : P} {ts : List T2} (h : View p ts) : View (strAdded s p) ts := h

theorem strAdded_go {s : Bytes} {p : P} : Go p (strAdded s p) ⟨[], [], { cs p with strings := (stringAdd p.strings s).1 }⟩ :=
  ⟨by simp [strAdded], by simp [strAdded], rfl, rfl⟩

theorem full_str {s : Bytes} : Full .operand b0 (comp (.str s) .val) [(.string, s)] := by
  intro p rest o Q hv hn hne hx k
  cases hx
  refine can_rec ?_
  simp only [body]
  refine can_tok (can_neg (by rw [hv.type]; decide) (can_neg (by rw [hv.type]; decide) (can_neg (by rw [hv.type]; decide) (can_pos hv.type
    (can_addStr (can_emit (can_fetch hv.strAdded.emitted hn.ne fun p1 hv1 s1 => ?_)))))))
  refine can_done (k _ _ hv1 ?_)
  rw [hv.value] at s1
  exact (strAdded_go.trans emitted_go).same s1

theorem full_par {v w : Bytes} {x : C} {ts : List T2} (h : Full .cond bCond x ts) (hts : ts ≠ []) :
    Full .operand b0 x ((.paropen, v) :: (ts ++ [(.parclose, w)])) := by
  intro p rest o Q hv hn hne hx k
  rw [List.cons_append, List.append_assoc] at hv
  refine can_rec ?_
  simp only [body]
  refine can_tok (can_neg (by rw [hv.type]; decide) (can_neg (by rw [hv.type]; decide) (can_neg (by rw [hv.type]; decide) (can_neg (by rw [hv.type]; decide)
    (can_pos hv.type (can_fetch hv (ne_app' hts) fun p1 hv1 s1 => can_bind ?_))))))
  refine h p1 _ o _ hv1 (nxt_of (by decide)) (by rw [s1.cs]; exact hne) (by rw [s1.cs]; exact hx) fun r p2 hv2 g2 => ?_
  refine can_expect (View.type (r := rest) hv2) (can_fetch hv2 hn.ne fun p3 hv3 s3 => can_done (k _ _ hv3 ((s1.then g2).same s3)))

theorem full_signed {s : UInt8} {t : Bytes} (hsg : s = 43 ∨ s = 45) : Full .operand b0 (comp (.num (s :: t)) .val) [(.addsub, [s]), (.const, t)] := by
  intro p rest o Q hv hn hne hx k
  cases hx
  refine can_rec ?_
  simp only [body]
  refine can_tok (can_neg (by rw [hv.type]; decide) (can_neg (by rw [hv.type]; decide) (can_neg (by rw [hv.type]; decide) (can_neg (by rw [hv.type]; decide)
    (can_neg (by rw [hv.type]; decide) (can_pos hv.type (can_fetch hv (by simp) fun p1 hv1 s1 => ?_)))))))
  refine can_tok (can_pos hv1.type (can_emit (can_fetch hv1.emitted hn.ne fun p2 hv2 s2 => can_done (k _ _ hv2 ?_))))
  have := s1.then (emitted_go.same s2)
  rw [hv.value, hv1.value, s1.cs] at this
  have e : constant (List.take 1 [s]) t = constant [] (s :: t) := by
    have hm : ¬ (46 : UInt8) = s := by rcases hsg with rfl | rfl <;> decide
    unfold constant
    simp only [List.mem_cons, hm, false_or]
    rfl
  rw [e] at this
  exact this

theorem first_const {ts rest : List T2} {p : P} {l : List TT} (hs : Starts l ts) (h : ∀ v, ts.head? ≠ some (.const, v)) (hv : View p (ts ++ rest)) :
    p.tok.type ≠ .const := by
  obtain ⟨t, v, r, rfl, _⟩ := hs
  rw [View.type (r := r ++ rest) hv]
  rintro rfl
  exact h v rfl

theorem full_plus {x : C} {ts : List T2} (h : Full .power bPow x ts) (hs : Starts (heads .pow) ts) (hc : ∀ v, ts.head? ≠ some (.const, v)) :
    Full .operand bPow x ((.addsub, [43]) :: ts) := by
  intro p rest o Q hv hn hne hx k
  refine can_rec ?_
  simp only [body]
  refine can_tok (can_neg (by rw [hv.type]; decide) (can_neg (by rw [hv.type]; decide) (can_neg (by rw [hv.type]; decide) (can_neg (by rw [hv.type]; decide)
    (can_neg (by rw [hv.type]; decide) (can_pos hv.type (can_fetch hv (ne_app' (ne_nil hs)) fun p1 hv1 s1 => ?_)))))))
  refine can_tok (can_neg (first_const hs hc hv1) (can_bind ?_))
  refine h p1 rest o _ hv1 hn (by rw [s1.cs]; exact hne) (by rw [s1.cs]; exact hx) fun r p2 hv2 g2 => ?_
  exact can_neg (by rw [hv.value]; decide) (can_done (k _ _ hv2 (s1.then g2)))

theorem full_minus {a : Ast} {ts : List T2} (h : Full .power bPow (comp a .val) ts) (hs : Starts (heads .pow) ts) (hc : ∀ v, ts.head? ≠ some (.const, v)) :
    Full .operand bPow (comp (.un .unm a) .val) ((.addsub, [45]) :: ts) := by
  intro p rest o Q hv hn hne hx k
  obtain ⟨x, h1, rfl⟩ := un_some hx
  refine can_rec ?_
  simp only [body]
  refine can_tok (can_neg (by rw [hv.type]; decide) (can_neg (by rw [hv.type]; decide) (can_neg (by rw [hv.type]; decide) (can_neg (by rw [hv.type]; decide)
    (can_neg (by rw [hv.type]; decide) (can_pos hv.type (can_fetch hv (ne_app' (ne_nil hs)) fun p1 hv1 s1 => ?_)))))))
  refine can_tok (can_neg (first_const hs hc hv1) (can_bind ?_))
  refine h p1 rest x _ hv1 hn (by rw [s1.cs]; exact hne) (by rw [s1.cs]; exact h1) fun r p2 hv2 g2 => ?_
  exact can_pos (by rw [hv.value]; rfl) (can_emit (can_done (k _ _ hv2.emitted (s1.then g2).emitted)))

/-! ### Tables -/

theorem full_tab0 {v w : Bytes} : Full .expr bExpr (comp .tnew .val) [(.blockopen, v), (.blockclose, w)] := by
  intro p rest o Q hv hn hne hx k
  cases hx
  refine can_rec ?_
  simp only [body]
  refine can_tok (can_pos hv.type (can_fetch hv (by simp) fun p1 hv1 s1 => can_tok (can_neg (by rw [hv1.type]; decide) (can_emit (can_neg (by rw [hv1.type]; decide) ?_)))))
  refine can_expect (View.type hv1.emitted) (can_fetch hv1.emitted hn.ne fun p2 hv2 s2 => can_done (k _ _ hv2 ?_))
  have := s1.then (emitted_go.same s2)
  rw [s1.cs] at this
  exact this

/-- An entry. -/
theorem can_entryKey {β : Type} {t : T2} {key : Key} {f : Unit → (NT → M Ret) → M β} {p : P} {ts : List T2} {o : Out} {Q : β → P → Prop} (hk : KeyTok t key)
    (hv : View p (t :: ts)) (ho : keyC key (cs p) = some o) (h : ∀ p', View p' (t :: ts) → Go p p' o → Can (f ()) p' Q) :
    Can (fun R => entryKey >>= fun a => f a R) p Q := by
  cases hk with
  | name =>
    cases ho
    refine can_step (p' := emitted (.num 37 ((stringAdd p.strings p.tok.value).2 : Nat)) (strAdded p.tok.value p)) (a := ()) ?_ ?_
    · show (if p.tok.type = .id then _ else _ : M Unit) p = _
      rw [if_pos hv.type]
      rfl
    · rw [hv.value]
      exact h _ hv.strAdded.emitted (strAdded_go.trans emitted_go)
  | num =>
    cases ho
    refine can_step (p' := emitted (constant [] p.tok.value) p) (a := ()) ?_ ?_
    · show (if p.tok.type = .id then _ else if p.tok.type = .const then emit (constant [] p.tok.value) else _ : M Unit) p = _
      rw [if_neg (by rw [hv.type]; decide), if_pos hv.type]
      rfl
    · rw [hv.value]
      exact h _ hv.emitted emitted_go

/-- One entry, from its dot on. -/
theorem can_entry {v w : Bytes} {t : T2} {key : Key} {ts rest : List T2} {a : Ast} {p : P} {x y : Out} {Q : Ret → P → Prop} (hk : KeyTok t key)
    (ha : Full .expr bExpr (comp a .val) ts) (hts : ts ≠ []) (hv : View p ((.dot, v) :: t :: (.assign, w) :: (ts ++ rest))) (hn : Nxt bExpr rest)
    (hne : (cs p).symstack ≠ []) (hx : keyC key (cs p) = some x) (hy : comp a .val x.cs = some y)
    (k : ∀ r p', View p' rest → Go p p' ⟨x.code ++ y.code ++ [.op 31], x.news ++ y.news, y.cs⟩ → Q r p') : Can (fun R => R .entry) p Q := by
  refine can_rec ?_
  simp only [body]
  refine can_fetch hv (by simp) fun p1 hv1 s1 => ?_
  refine can_entryKey hk hv1 (by rw [s1.cs]; exact hx) fun p2 hv2 g2 => ?_
  refine can_fetch hv2 (by simp) fun p3 hv3 s3 => can_expect hv3.type (can_fetch hv3 (ne_app' hts) fun p4 hv4 s4 => can_bind ?_)
  have e4 : cs p4 = x.cs := by rw [s4.cs, s3.cs, g2.cs]
  have hne4 : (cs p4).symstack ≠ [] := by
    rw [e4]
    have := keeps_key key _ _ hx
    intro e
    rw [e] at this
    exact hne (List.length_eq_zero_iff.mp this.symm)
  refine ha p4 rest y _ hv4 hn hne4 (by rw [e4]; exact hy) fun r p5 hv5 g5 => ?_
  exact can_emit (can_done (k _ _ hv5.emitted (((s1.then g2).same (s3.trans s4)).trans g5).emitted))

/-- Entries read so far: the table is built and its loop is entered. -/
def Entries (ts : List T2) (a : Ast) : Prop :=
  ∀ p rest o Q, View p (ts ++ rest) → Nxt bExpr rest → (cs p).symstack ≠ [] → comp a .val (cs p) = some o →
    (∀ p' lines, View p' rest → o.code = .op 30 :: .op 3 :: lines → Go p p' ⟨lines, o.news, o.cs⟩ → Can (fun R => R .entries) p' Q) →
    Can (fun R => R .entry) p (fun _ p1 => Can (fun R => R .entries) p1 Q)

theorem tset_some {t a : Ast} {key : Key} {m : Mode} {c : CS} {r : Out} (h : comp (.tset t key a) m c = some r) :
    ∃ u x y, comp t .val c = some u ∧ keyC key u.cs = some x ∧ comp a .val x.cs = some y ∧
      r = ⟨u.code ++ [.op 3] ++ x.code ++ y.code ++ [.op 31], u.news ++ x.news ++ y.news, y.cs⟩ := by
  obtain ⟨r1, r2, h1, h2, rfl⟩ := seq_some h
  obtain ⟨r3, r4, h3, h4, rfl⟩ := seq_some h1
  obtain ⟨r5, r6, h5, h6, rfl⟩ := seq_some h3
  obtain ⟨r7, r8, h7, h8, rfl⟩ := seq_some h5
  cases h2
  cases h8
  exact ⟨r7, r6, r4, h7, h6, h4, by simp⟩

theorem entries_one {v w : Bytes} {t : T2} {key : Key} {ts : List T2} {a : Ast} (hk : KeyTok t key) (ha : Full .expr bExpr (comp a .val) ts) (hts : ts ≠ []) :
    Entries ((.dot, v) :: t :: (.assign, w) :: ts) (.tset .tnew key a) := by
  intro p rest o Q hv hn hne hx k
  obtain ⟨u, x, y, h1, h2, h3, rfl⟩ := tset_some hx
  cases h1
  refine can_entry hk ha hts hv hn hne h2 h3 fun r p' hv' g => ?_
  exact k p' (x.code ++ y.code ++ [.op 31]) hv' (by simp) (by simpa using g)

theorem entries_more {u v w : Bytes} {t : T2} {key : Key} {us ts : List T2} {a b : Ast} (h : Entries us b) (hk : KeyTok t key)
    (ha : Full .expr bExpr (comp a .val) ts) (hts : ts ≠ []) :
    Entries (us ++ (.listsep, u) :: (.dot, v) :: t :: (.assign, w) :: ts) (.tset b key a) := by
  intro p rest o Q hv hn hne hx k
  obtain ⟨q, x, y, h1, h2, h3, rfl⟩ := tset_some hx
  rw [List.append_assoc] at hv
  refine h p _ q Q hv (nxt_of (by decide)) hne h1 fun p1 lines hv1 hl g1 => ?_
  refine can_rec ?_
  simp only [body]
  refine can_tok (can_pos (View.type hv1) (can_emit (can_fetch (hv1.emitted) (by simp) fun p2 hv2 s2 => can_expect (View.type hv2) (can_bind ?_))))
  have e2 : cs p2 = q.cs := by rw [s2.cs]; exact g1.cs
  refine can_entry (rest := rest) hk ha hts hv2 hn (by rw [e2]; exact comp_ne h1 hne) (by rw [e2]; exact h2) h3 fun r p3 hv3 g3 => ?_
  have g := (g1.emitted.same s2).trans g3
  exact k p3 (lines ++ [.op 3] ++ x.code ++ y.code ++ [.op 31]) hv3 (by simp [hl]) (by simpa using g)

theorem full_tab {v w : Bytes} {ts : List T2} {a : Ast} (h : Entries ts a) (hs : Starts [.dot] ts) :
    Full .expr bExpr (comp a .val) ((.blockopen, v) :: (ts ++ [(.blockclose, w)])) := by
  intro p rest o Q hv hn hne hx k
  rw [List.cons_append, List.append_assoc] at hv
  refine can_rec ?_
  simp only [body]
  refine can_tok (can_pos hv.type (can_fetch hv (by simp) fun p1 hv1 s1 => can_tok ?_))
  have hd : p1.tok.type = .dot := by simpa using hs.view hv1
  refine can_neg (by rw [hd]; decide) (can_emit (can_pos hd (can_emit ?_)))
  have e1 : cs (emitted (.op 3) (emitted (.op 30) p1)) = cs p := s1.cs
  refine can_bind (can_mono (h (emitted (.op 3) (emitted (.op 30) p1)) ((.blockclose, w) :: rest) o _ hv1 (nxt_of (by decide)) (by rw [e1]; exact hne)
    (by rw [e1]; exact hx) ?_) fun _ _ c => can_bind c)
  intro p2 lines hv2 hl g2
  refine can_rec ?_
  simp only [body]
  refine can_tok (can_neg (by rw [View.type (r := rest) hv2]; decide) (can_done ?_))
  refine can_expect (View.type (r := rest) hv2) (can_fetch hv2 hn.ne fun p3 hv3 s3 => can_done (k _ _ hv3 ?_))
  have g := s1.then ((emitted_go.emitted.trans g2).same s3)
  obtain ⟨oc, on, os⟩ := o
  simp only at hl
  subst hl
  simpa using g

/-! ### Arguments -/

theorem pre_arg1 {a : Ast} {ts : List T2} (h : Full .cond bCond (comp a .val) ts) (hs : Starts (heads .cond) ts) :
    Pre .condlist (.condlistRest 1) bCond (comp (.arg .noArg a) .val) ts := by
  intro p rest o Q hv hn hne hx k
  obtain ⟨u, v, h1, h2, rfl⟩ := seq_some hx
  cases h1
  refine can_rec ?_
  simp only [body]
  refine can_tok (can_neg (fun e => ?_) (can_bind (h p rest v _ hv hn hne h2 fun r p' hv' hg => k p' hv' ?_)))
  · have := hs.view hv
    rw [e] at this
    revert this
    decide
  · simpa using hg

theorem pre_arg {v : Bytes} {n : Nat} {a b : Ast} {ts us : List T2} (hb : Pre .condlist (.condlistRest n) bCond (comp b .val) ts)
    (h : Full .cond bCond (comp a .val) us) (hus : us ≠ []) :
    Pre .condlist (.condlistRest (n + 1)) bCond (comp (.arg b a) .val) (ts ++ (.listsep, v) :: us) := by
  intro p rest o Q hv hn hne hx k
  obtain ⟨x, y, h1, h2, rfl⟩ := seq_some hx
  rw [List.append_assoc] at hv
  refine hb p _ x Q hv (nxt_of (by decide)) hne h1 fun p1 hv1 g1 => ?_
  refine can_rec ?_
  simp only [body]
  refine can_tok (can_pos (View.type (r := us ++ rest) hv1) (can_fetch hv1 (ne_app' hus) fun p2 hv2 s2 => can_bind ?_))
  have e2 : cs p2 = x.cs := by rw [s2.cs, g1.cs]
  refine h p2 rest y _ hv2 hn (by rw [e2]; exact comp_ne h1 hne) (by rw [e2]; exact h2) fun r3 p3 hv3 g3 => ?_
  exact k _ hv3 ((g1.same s2).trans g3)

theorem condlistRest_end {n : Nat} {p : P} {Q : Ret → P → Prop} (h : p.tok.type ≠ .listsep) (k : Q ⟨n, 0, false⟩ p) :
    Can (fun R => R (.condlistRest n)) p Q := by
  refine can_rec ?_
  simp only [body]
  exact can_tok (can_neg h (can_pure k))

/-! ### References -/

theorem lookup_onBase {x : Bytes} {f : Syms → Syms} (hf : ∀ t, ∃ s, FMap.get (f t) x = some s) : ∀ {st : List Syms}, st ≠ [] → ∃ s, lookup x (onBase f st) = some s
  | [], h => absurd rfl h
  | [t], _ => by
    obtain ⟨s, hs⟩ := hf t
    exact ⟨s, by simp only [onBase, lookup, hs]⟩
  | t :: u :: r, _ => by
    obtain ⟨s, hs⟩ := lookup_onBase hf (st := u :: r) (by simp)
    show ∃ s, (match FMap.get t x with | some s => some s | none => lookup x (onBase f (u :: r))) = some s
    cases FMap.get t x with
    | some s => exact ⟨s, rfl⟩
    | none => exact ⟨s, hs⟩

theorem lookup_known (x : Bytes) {c : CS} (h : c.symstack ≠ []) : lookup x (known x c).symstack = some (symOf x c) := by
  have : ∃ s, lookup x (known x c).symstack = some s := by
    unfold known
    by_cases e : lookup x c.symstack = none
    · rw [if_pos e]
      exact lookup_onBase (fun t => ⟨_, FMap.get_set_self _ _ _⟩) h
    · rw [if_neg e]
      exact Option.ne_none_iff_exists'.mp e
  obtain ⟨s, hs⟩ := this
  unfold symOf
  rw [hs]
  rfl

/-- The symbol is made known. -/
theorem can_known {β : Type} {x : Bytes} {y : (NT → M Ret) → M β} {p : P} {Q : β → P → Prop}
    (h : ∀ p', cs p' = known x (cs p) → p'.tok = p.tok → p'.toks = p.toks → p'.code = p.code → p'.chunks = p.chunks → p'.fin = p.fin → Can y p' Q) :
    Can (fun R => if lookup x p.symstack = none then (symAdd x true >>= fun _ => y R) else y R) p Q := by
  by_cases e : lookup x p.symstack = none
  · refine can_pos e (can_upd (h _ ?_ rfl rfl rfl rfl rfl))
    unfold known
    rw [if_pos (show lookup x (cs p).symstack = none from e)]
    rfl
  · refine can_neg e (h p ?_ rfl rfl rfl rfl rfl)
    unfold known
    rw [if_neg (show ¬ lookup x (cs p).symstack = none from e)]

/-- What is left to be emitted when a reference has been read. -/
def tailOps (m : Mode) (info : Int) (glob : Bool) : List Ln :=
  match m with
  | .val => loadOps info glob false
  | .callee => loadOps info glob true
  | .lval => if glob then [.num 37 info] else []

/-- What a reference leaves to its end. -/
def kind (a : Ast) (c : CS) : Int × Bool :=
  match a with
  | .id x => ((symOf x c).pos, (symOf x c).global)
  | .call _ _ => (-2, false)
  | _ => (-3, false)

/-- The use of a reference fits the following token. -/
def Fits (m : Mode) (a : Ast) (rest : List T2) : Prop :=
  match m with
  | .val => Nxt [.paropen] rest
  | .callee => ∃ v r, rest = (.paropen, v) :: r
  | .lval => Nxt [.paropen] rest ∧ ∀ f as, a ≠ .call f as

/-- The state when a reference has been read: the code before it is saved, with one `pushnil` for each chained call. -/
structure Read (p p' : P) (o : Out) (m : Mode) (info : Int) (glob : Bool) (saved : List (Ln × Pos)) : Prop where
  code : ∃ (k : Nat) (lines : List Ln), saved.map Prod.fst = p.code.map Prod.fst ++ List.replicate k (.op 2) ∧ p'.code.map Prod.fst = lines ∧
    o.code = List.replicate k (.op 2) ++ lines ++ tailOps m info glob
  chunks : p'.chunks.map plain = p.chunks.map plain ++ o.news
  cs : cs p' = o.cs
  fin : p'.fin = p.fin

/-- A reference: after it, `idref` is in its loop. -/
def RefC (ts : List T2) (a : Ast) : Prop :=
  ∀ lv m p rest o Q, View p (ts ++ rest) → rest ≠ [] → (cs p).symstack ≠ [] → Fits m a rest → comp a m (cs p) = some o →
    (∀ p' saved, View p' rest → Read p p' o m (kind a (cs p)).1 (kind a (cs p)).2 saved →
      Can (fun R => R (.idrefRest lv (kind a (cs p)).1 (kind a (cs p)).2 saved)) p' Q) → Can (fun R => R (.idref lv)) p Q

theorem ref_id {x : Bytes} : RefC [(.id, x)] (.id x) := by
  intro lv m p rest o Q hv hr hne hf hx k
  refine can_rec ?_
  simp only [body]
  refine can_expect hv.type (can_tok (can_ask ?_))
  rw [hv.value]
  refine can_known fun p1 hc ht hts hcode hch hfin => can_ask ?_
  have hl : lookup x p1.symstack = some (symOf x (cs p)) := by
    have := lookup_known x hne
    rw [← hc] at this
    exact this
  have hv1 : View p1 ([(.id, x)] ++ rest) := by
    unfold View
    rw [ht, hts]
    exact hv
  rw [hl]
  refine can_fetch hv1 hr fun p2 hv2 s2 => can_step (x := bufPush) rfl ?_
  refine k _ _ hv2 ⟨⟨0, [], ?_, rfl, ?_⟩, ?_, ?_, ?_⟩
  · rw [s2.2.1, hcode]
    simp
  · cases hx
    cases m <;> rfl
  · cases hx
    rw [List.append_nil]
    show p2.chunks.map plain = _
    rw [s2.2.2.1, hch]
  · cases hx
    show cs p2 = known x (cs p)
    rw [s2.cs, hc]
  · show p2.fin = p.fin
    rw [s2.2.2.2.2.2, hfin]

/-- `load` emits. -/
theorem load_eq (info : Int) (glob call : Bool) (p : P) :
    ∃ p', load info glob call p = .ok (some ((), p')) ∧ p'.tok = p.tok ∧ p'.toks = p.toks ∧ Go p p' ⟨loadOps info glob call, [], cs p⟩ := by
  have two : ∀ a b : Ln, Go p (emitted b (emitted a p)) ⟨[a, b], [], cs p⟩ := fun a b => emitted_go.emitted
  have three : ∀ a b c : Ln, Go p (emitted c (emitted b (emitted a p))) ⟨[a, b, c], [], cs p⟩ := fun a b c => emitted_go.emitted.emitted
  unfold load loadOps
  cases glob with
  | true =>
    cases call with
    | true => exact ⟨_, rfl, rfl, rfl, three _ _ _⟩
    | false => exact ⟨_, rfl, rfl, rfl, two _ _⟩
  | false =>
    simp only [Bool.false_eq_true, if_false]
    by_cases h0 : 0 ≤ info
    · rw [if_pos h0, if_pos h0]
      cases call with
      | true => exact ⟨_, rfl, rfl, rfl, two _ _⟩
      | false => exact ⟨_, rfl, rfl, rfl, emitted_go⟩
    · rw [if_neg h0, if_neg h0]
      by_cases h3 : info = -3
      · rw [if_pos h3, if_pos h3]
        exact ⟨_, rfl, rfl, rfl, emitted_go⟩
      · rw [if_neg h3, if_neg h3]
        by_cases h2 : info = -2
        · rw [if_pos h2, if_pos h2]
          exact ⟨_, rfl, rfl, rfl, emitted_go⟩
        · rw [if_neg h2, if_neg h2]
          exact ⟨p, rfl, rfl, rfl, Go.refl p⟩

theorem can_load {β : Type} {info : Int} {glob call : Bool} {f : Unit → (NT → M Ret) → M β} {p : P} {ts : List T2} {Q : β → P → Prop} (hv : View p ts)
    (k : ∀ p', View p' ts → Go p p' ⟨loadOps info glob call, [], cs p⟩ → Can (f ()) p' Q) : Can (fun R => load info glob call >>= fun a => f a R) p Q := by
  obtain ⟨p', e, ht, hts, g⟩ := load_eq info glob call p
  refine can_step e (k p' ?_ g)
  unfold View
  rw [ht, hts]
  exact hv

/-- More of the reference. -/
theorem Read.go {p p1 p2 : P} {a b o : Out} {m m' : Mode} {info info' : Int} {glob glob' : Bool} {saved : List (Ln × Pos)} (h : Read p p1 a m info glob saved)
    (g : Go p1 p2 ⟨tailOps m info glob ++ b.code, b.news, b.cs⟩) (ho : o = ⟨a.code ++ b.code ++ tailOps m' info' glob', a.news ++ b.news, b.cs⟩) :
    Read p p2 o m' info' glob' saved := by
  obtain ⟨⟨k, lines, h1, h2, h3⟩, hch, hcs, hfin⟩ := h
  subst ho
  refine ⟨⟨k, _, h1, rfl, ?_⟩, ?_, g.cs, by rw [g.fin, hfin]⟩
  · show a.code ++ b.code ++ _ = _
    rw [g.code, h2, h3]
    simp
  · rw [g.chunks, hch]
    simp

theorem field_some {r : Ast} {s : Bytes} {m : Mode} {c : CS} {o : Out} (h : comp (.field r s) m c = some o) :
    ∃ a, comp r .val c = some a ∧ o = ⟨a.code ++ ((if m = .callee then [.op 3] else []) ++ [.num 37 (stringAdd a.cs.strings s).2]) ++
      (if m = .lval then [] else [.op 32]), a.news, { a.cs with strings := (stringAdd a.cs.strings s).1 }⟩ := by
  obtain ⟨r1, r2, h1, h2, rfl⟩ := seq_some h
  obtain ⟨r3, r4, h3, h4, rfl⟩ := seq_some h1
  cases h2
  cases h4
  exact ⟨r3, h3, by simp⟩

theorem tail_tab (m : Mode) : tailOps m (-3) false = if m = .lval then [] else [.op 32] := by
  cases m <;> decide

theorem fits_val {a : Ast} {t : TT} {v : Bytes} {r : List T2} (h : t ≠ .paropen) : Fits .val a ((t, v) :: r) := nxt_of (by simpa using h)

theorem fits_callee {m : Mode} {a : Ast} {rest : List T2} {p : P} (h : Fits m a rest) (hv : View p rest) : p.tok.type = .paropen ↔ m = .callee := by
  cases m with
  | val => have := hv.nxt h; simpa using this
  | callee => obtain ⟨v, r, rfl⟩ := h; simp [hv.type]
  | lval => have := hv.nxt h.1; simpa using this

theorem ref_field {v s : Bytes} {ts : List T2} {a : Ast} (h : RefC ts a) : RefC (ts ++ [(.dot, v), (.id, s)]) (.field a s) := by
  intro lv m p rest o Q hv hr hne hf hx k
  obtain ⟨x, h1, rfl⟩ := field_some hx
  rw [List.append_assoc] at hv
  refine h lv .val p _ x Q hv (by simp) hne (fits_val (by decide)) h1 fun p1 saved hv1 r1 => ?_
  refine can_rec ?_
  simp only [body]
  refine can_tok (can_pos (View.type hv1) (can_load hv1 fun p2 hv2 g2 => can_fetch hv2 (by simp) fun p3 hv3 s3 => can_expect (View.type hv3) (can_tok ?_)))
  rw [View.value hv3]
  refine can_addStr (can_fetch hv3.strAdded hr fun p4 hv4 s4 => can_tok ?_)
  have e3 : p3.strings = x.cs.strings := by
    have := s3.cs
    rw [g2.cs, r1.cs] at this
    exact congrArg CS.strings this
  have g : ∀ l, Go (strAdded s p3) l ⟨(if m = .callee then [.op 3] else []) ++ [.num 37 (stringAdd p3.strings s).2], [], cs (strAdded s p3)⟩ →
      Read p l ⟨x.code ++ ((if m = .callee then [.op 3] else []) ++ [.num 37 (stringAdd x.cs.strings s).2]) ++ (if m = .lval then [] else [.op 32]),
        x.news, { x.cs with strings := (stringAdd x.cs.strings s).1 }⟩ m (-3) false saved := by
    intro l hl
    refine Read.go (b := ⟨(if m = .callee then [.op 3] else []) ++ [.num 37 (stringAdd x.cs.strings s).2], [],
      { x.cs with strings := (stringAdd x.cs.strings s).1 }⟩) r1 ?_ (by rw [tail_tab]; simp)
    have gg := ((g2.same s3).trans strAdded_go).trans hl
    have e : cs (strAdded s p3) = { x.cs with strings := (stringAdd x.cs.strings s).1 } := by
      show CS.mk _ _ _ = _
      have := s3.cs
      rw [g2.cs, r1.cs] at this
      rw [← this]
      rfl
    rw [e, e3] at gg
    simpa [tailOps] using gg
  by_cases hp : p4.tok.type = .paropen
  · have hm := (fits_callee hf hv4).mp hp
    refine can_pos hp (can_emit (can_emit (k _ saved hv4 (g _ ?_))))
    subst hm
    have := s4.then ((emitted_go (l := .op 3) (p := p4)).emitted (l := .num 37 (stringAdd p3.strings s).2))
    rw [s4.cs] at this
    exact this
  · have hm : m ≠ .callee := fun e => hp ((fits_callee hf hv4).mpr e)
    refine can_neg hp (can_emit (k _ saved hv4 (g _ ?_)))
    rw [if_neg hm]
    have := s4.then (emitted_go (l := .num 37 (stringAdd p3.strings s).2) (p := p4))
    rw [s4.cs] at this
    exact this

theorem index_some {r e : Ast} {m : Mode} {c : CS} {o : Out} (h : comp (.index r e) m c = some o) :
    ∃ a b, comp r .val c = some a ∧ comp e .val a.cs = some b ∧ o = ⟨a.code ++ ((if m = .callee then [.op 3] else []) ++ b.code) ++
      (if m = .lval then [] else [.op 32]), a.news ++ b.news, b.cs⟩ := by
  obtain ⟨r1, r2, h1, h2, rfl⟩ := seq_some h
  obtain ⟨r3, r4, h3, h4, rfl⟩ := seq_some h1
  obtain ⟨r5, r6, h5, h6, rfl⟩ := seq_some h3
  cases h2
  cases h6
  exact ⟨r5, r4, h5, h4, by simp⟩

theorem ref_index {v w : Bytes} {ts us : List T2} {a e : Ast} (h : RefC ts a) (he : Full .expr bExpr (comp e .val) us) (hus : us ≠ []) :
    RefC (ts ++ (.idxopen, v) :: (us ++ [(.idxclose, w)])) (.index a e) := by
  intro lv m p rest o Q hv hr hne hf hx k
  obtain ⟨x, y, h1, h2, rfl⟩ := index_some hx
  rw [List.append_assoc, List.cons_append, List.append_assoc] at hv
  refine h lv .val p _ x Q hv (by simp) hne (fits_val (by decide)) h1 fun p1 saved hv1 r1 => ?_
  refine can_rec ?_
  simp only [body]
  refine can_tok (can_neg (by rw [View.type hv1]; decide) (can_pos (View.type hv1) (can_load hv1 fun p2 hv2 g2 =>
    can_fetch hv2 (ne_app' hus) fun p3 hv3 s3 => can_step (x := bufPush) rfl (can_bind ?_))))
  have e3 : cs p3 = x.cs := by rw [s3.cs, g2.cs, r1.cs]
  have e3' : cs { p3 with code := [] } = x.cs := e3
  refine he { p3 with code := [] } _ y _ hv3 (nxt_of (by decide)) (by rw [e3']; exact comp_ne h1 hne) (by rw [e3']; exact h2) fun r4 p4 hv4 g4 => ?_
  refine can_expect (View.type (r := rest) hv4) (can_fetch hv4 hr fun p5 hv5 s5 => can_tok ?_)
  have g : ∀ l : List (Ln × Pos), l.map Prod.fst = (if m = .callee then [.op 3] else []) →
      Read p { p5 with code := (p3.code ++ l) ++ p5.code } ⟨x.code ++ ((if m = .callee then [.op 3] else []) ++ y.code) ++ (if m = .lval then [] else [.op 32]),
        x.news ++ y.news, y.cs⟩ m (-3) false saved := by
    intro l hl
    refine Read.go (b := ⟨(if m = .callee then [.op 3] else []) ++ y.code, y.news, y.cs⟩) r1 ?_ (by rw [tail_tab])
    have g5 := g4.same s5
    have g3 := g2.same s3
    refine ⟨?_, ?_, g5.cs, ?_⟩
    · show ((p3.code ++ l) ++ p5.code).map Prod.fst = _
      have c5 : p5.code.map Prod.fst = y.code := by
        have := g5.code
        simpa using this
      rw [List.map_append, List.map_append, g3.code, hl, c5]
      simp [tailOps]
    · show p5.chunks.map plain = _
      rw [g5.chunks]
      show p3.chunks.map plain ++ _ = _
      rw [g3.chunks]
      simp
    · show p5.fin = _
      rw [g5.fin]
      exact g3.fin
  by_cases hp : p5.tok.type = .paropen
  · have hm := (fits_callee hf hv5).mp hp
    refine can_step (a := p3.code ++ [(.op 3, mark p5.tok)]) (p' := p5) (by rw [if_pos hp]; rfl) ?_
    refine can_step (x := bufPop _) (a := ()) (p' := { p5 with code := (p3.code ++ [(.op 3, mark p5.tok)]) ++ p5.code }) rfl (k _ saved hv5 (g _ ?_))
    rw [if_pos hm]
    rfl
  · have hm : m ≠ .callee := fun e => hp ((fits_callee hf hv5).mpr e)
    refine can_step (a := p3.code) (p' := p5) (by rw [if_neg hp]; rfl) ?_
    refine can_step (x := bufPop _) (a := ()) (p' := { p5 with code := p3.code ++ p5.code }) rfl (k _ saved hv5 ?_)
    have := g [] (by rw [if_neg hm]; rfl)
    rw [List.append_nil] at this
    exact this

theorem call_some {r as : Ast} {m : Mode} {c : CS} {o : Out} (h : comp (.call r as) m c = some o) :
    ∃ a b, comp r .callee c = some a ∧ comp as .val a.cs = some b ∧ o = ⟨(if m = .callee then [.op 2] else []) ++ a.code ++ b.code ++ [.num 36 (nargs as), .op 33],
      a.news ++ b.news, b.cs⟩ := by
  obtain ⟨r1, r2, h1, h2, rfl⟩ := seq_some h
  obtain ⟨r3, r4, h3, h4, rfl⟩ := seq_some h1
  obtain ⟨r5, r6, h5, h6, rfl⟩ := seq_some h3
  cases h2
  cases h5
  exact ⟨r6, r4, h6, h4, by simp⟩

/-- The argument list and its closing parenthesis. -/
def ArgList (us : List T2) (e : Ast) : Prop :=
  ∀ p w rest o Q, View p (us ++ (.parclose, w) :: rest) → (cs p).symstack ≠ [] → comp e .val (cs p) = some o →
    (∀ r p', r.num = nargs e → View p' ((.parclose, w) :: rest) → Go p p' o → Q r p') → Can (fun R => R .condlist) p Q

theorem args_none : ArgList [] .noArg := by
  intro p w rest o Q hv hne hx k
  cases hx
  refine can_rec ?_
  simp only [body]
  exact can_tok (can_pos (View.type (r := rest) hv) (can_done (k _ p rfl hv (Go.refl p))))

theorem args_some {us : List T2} {e : Ast} (h : Pre .condlist (.condlistRest (nargs e)) bCond (comp e .val) us) : ArgList us e := by
  intro p w rest o Q hv hne hx k
  refine h p _ o Q hv (nxt_of (by decide)) hne hx fun p1 hv1 g1 => ?_
  exact condlistRest_end (by rw [View.type hv1]; decide) (k _ _ rfl hv1 g1)

theorem tail_call {m : Mode} {f as : Ast} {rest : List T2} (h : Fits m (.call f as) rest) : tailOps m (-2) false = [.op 33] := by
  cases m with
  | val => decide
  | callee => decide
  | lval => exact absurd rfl (h.2 f as)

theorem ref_call {v w : Bytes} {ts us : List T2} {a e : Ast} (h : RefC ts a) (he : ArgList us e) :
    RefC (ts ++ (.paropen, v) :: (us ++ [(.parclose, w)])) (.call a e) := by
  intro lv m p rest o Q hv hr hne hf hx k
  obtain ⟨x, y, h1, h2, rfl⟩ := call_some hx
  rw [List.append_assoc, List.cons_append, List.append_assoc] at hv
  refine h lv .callee p _ x Q hv (by simp) hne ⟨_, _, rfl⟩ h1 fun p1 saved hv1 r1 => ?_
  refine can_rec ?_
  simp only [body]
  refine can_tok (can_neg (by rw [View.type hv1]; decide) (can_neg (by rw [View.type hv1]; decide) (can_pos (View.type hv1) (can_load hv1 fun p2 hv2 g2 =>
    can_fetch hv2 (by simp) fun p3 hv3 s3 => can_bind ?_))))
  have e3 : cs p3 = x.cs := by rw [s3.cs, g2.cs, r1.cs]
  refine he p3 w rest y _ hv3 (by rw [e3]; exact comp_ne h1 hne) (by rw [e3]; exact h2) fun r4 p4 hr4 hv4 g4 => ?_
  refine can_expect (View.type (r := rest) hv4) (can_fetch hv4 hr fun p5 hv5 s5 => can_tok ?_)
  have g5 := ((g2.same s3).trans (g4.same s5)).emitted (l := .num 36 r4.num)
  rw [hr4] at g5
  obtain ⟨⟨n, lines, c1, c2, c3⟩, rch, rcs, rfin⟩ := r1
  have g : ∀ l : List (Ln × Pos), l.map Prod.fst = (if m = .callee then [.op 2] else []) →
      Read p (emitted (.num 36 (nargs e)) p5) ⟨(if m = .callee then [.op 2] else []) ++ x.code ++ y.code ++ [.num 36 (nargs e), .op 33],
        x.news ++ y.news, y.cs⟩ m (-2) false (saved ++ l) := by
    intro l hl
    refine ⟨⟨n + (if m = .callee then 1 else 0), _, ?_, rfl, ?_⟩, ?_, g5.cs, ?_⟩
    · rw [List.map_append, c1, hl, List.append_assoc]
      congr 1
      split <;> simp [List.replicate_succ']
    · rw [tail_call hf, g5.code, c2]
      show _ ++ x.code ++ y.code ++ _ = _
      rw [c3]
      split <;> simp [tailOps, List.replicate_succ]
    · rw [g5.chunks, rch]
      simp
    · rw [g5.fin, rfin]
  by_cases hp : p5.tok.type = .paropen
  · have hm := (fits_callee hf hv5).mp hp
    refine can_step (a := saved ++ [(.op 2, mark p5.tok)]) (p' := p5) (by rw [if_pos hp]; rfl) (can_emit ?_)
    rw [hr4]
    exact k _ _ hv5 (g [(.op 2, mark p5.tok)] (by rw [if_pos hm]; rfl))
  · have hm : m ≠ .callee := fun e => hp ((fits_callee hf hv5).mpr e)
    refine can_step (a := saved) (p' := p5) (by rw [if_neg hp]; rfl) (can_emit ?_)
    rw [hr4]
    have := g [] (by rw [if_neg hm]; rfl)
    rw [List.append_nil] at this
    exact k _ saved hv5 this

/-- The end of a reference. -/
theorem ref_end {lv : Bool} {m : Mode} {ts rest : List T2} {a : Ast} {p : P} {o : Out} {Q : Ret → P → Prop} (h : RefC ts a) (hv : View p (ts ++ rest)) (hn : Nxt b0 rest)
    (hne : (cs p).symstack ≠ []) (hx : comp a m (cs p) = some o) (hm : (m = .val ∧ (lv = false ∨ ∃ f as, a = .call f as)) ∨ (m = .lval ∧ lv = true ∧ ∀ f as, a ≠ .call f as))
    (k : ∀ p', View p' rest →
      (m = .val → Go p p' o) →
      (m = .lval → ∃ lines, o.code = lines ++ tailOps .lval (kind a (cs p)).1 (kind a (cs p)).2 ∧ Go p p' ⟨lines, o.news, o.cs⟩) →
      Q ⟨0, (kind a (cs p)).1, (kind a (cs p)).2⟩ p') : Can (fun R => R (.idref lv)) p Q := by
  have hf : Fits m a rest := by
    rcases hm with ⟨rfl, _⟩ | ⟨rfl, _, hc⟩
    · exact hn.mono (by decide)
    · exact ⟨hn.mono (by decide), hc⟩
  refine h lv m p rest o Q hv hn.ne hne hf hx fun p1 saved hv1 r1 => ?_
  have ht := hv1.nxt hn
  refine can_rec ?_
  simp only [body]
  refine can_tok (can_neg (fun e => ht (by rw [e]; decide)) (can_neg (fun e => ht (by rw [e]; decide)) (can_neg (fun e => ht (by rw [e]; decide)) ?_)))
  obtain ⟨⟨n, lines, c1, c2, c3⟩, rch, rcs, rfin⟩ := r1
  rcases hm with ⟨rfl, hm⟩ | ⟨rfl, rfl, hc⟩
  · have hcond : lv = false ∨ (kind a (cs p)).1 = -2 := by
      rcases hm with rfl | ⟨f, as, rfl⟩
      · exact Or.inl rfl
      · exact Or.inr rfl
    refine can_pos hcond (can_load hv1 fun p2 hv2 g2 => can_upd (can_pure (k _ hv2 (fun _ => ?_) (by simp))))
    refine ⟨?_, ?_, ?_, ?_⟩
    · show (saved ++ p2.code).map Prod.fst = _
      rw [List.map_append, c1, g2.code, c2, c3]
      simp [tailOps]
    · show p2.chunks.map plain = _
      rw [g2.chunks, rch]
      simp
    · show cs p2 = _
      rw [g2.cs, rcs]
    · show p2.fin = _
      rw [g2.fin, rfin]
  · have hcond : ¬ (true = false ∨ (kind a (cs p)).1 = -2) := by
      rintro (e | e)
      · cases e
      · cases a <;> first | exact hc _ _ rfl | (simp only [kind] at e; omega)
    refine can_neg hcond (can_upd (can_pure (k _ hv1 (by simp) fun _ => ⟨List.replicate n (.op 2) ++ lines, c3, ?_⟩)))
    refine ⟨?_, rch, rcs, rfin⟩
    show (saved ++ p1.code).map Prod.fst = _
    rw [List.map_append, c1, c2]
    simp

theorem full_ref {ts : List T2} {a : Ast} (h : RefC ts a) (hs : Starts [.id] ts) : Full .operand b0 (comp a .val) ts := by
  intro p rest o Q hv hn hne hx k
  have ht : p.tok.type = .id := by simpa using hs.view hv
  refine can_rec ?_
  simp only [body]
  refine can_tok (can_neg (by rw [ht]; decide) (can_neg (by rw [ht]; decide) (can_neg (by rw [ht]; decide) (can_neg (by rw [ht]; decide)
    (can_neg (by rw [ht]; decide) (can_neg (by rw [ht]; decide) (can_bind ?_)))))))
  exact ref_end h hv hn hne hx (Or.inl ⟨rfl, Or.inl rfl⟩) fun p' hv' g _ => can_done (k _ _ hv' (g rfl))

end Buzz.Comp
