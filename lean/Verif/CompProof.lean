import Verif.Comp

/-
The model of the compiler does on the tokens of a piece of syntax what `Comp.comp` says.
-/
namespace Buzz.Comp

open Buzz.Msg Buzz.Lex Buzz.Parser Buzz.Lang Buzz.Debug
open Buzz.VM (Bin Un)

/-! ### Running the parsing functions -/

/-- With enough fuel, `x` started in `p` returns `a` in `p'`. -/
def Ev {α : Type} (x : (NT → M Ret) → M α) (p : P) (a : α) (p' : P) : Prop := ∃ n, ∀ m, n ≤ m → x (parse m) p = .ok (some (a, p'))

theorem ev_of {α : Type} {x : M α} {p p' : P} {a : α} (h : x p = .ok (some (a, p'))) : Ev (fun _ => x) p a p' := ⟨0, fun _ _ => h⟩

theorem ev_bind {α β : Type} {x : (NT → M Ret) → M α} {f : α → (NT → M Ret) → M β} {p p1 p2 : P} {a : α} {b : β} (h1 : Ev x p a p1)
    (h2 : Ev (f a) p1 b p2) : Ev (fun R => x R >>= fun a => f a R) p b p2 := by
  obtain ⟨n1, h1⟩ := h1
  obtain ⟨n2, h2⟩ := h2
  refine ⟨max n1 n2, fun m hm => ?_⟩
  show (match x (parse m) p with
    | .ok (some (a, p')) => f a (parse m) p'
    | .ok none => .ok none
    | .ub => .ub
    | .abort => .abort
    | .hang => .hang) = _
  rw [h1 m (by omega)]
  exact h2 m (by omega)

theorem ev_rec {nt : NT} {p p' : P} {r : Ret} (h : Ev (fun R => body R nt) p r p') : Ev (fun R => R nt) p r p' := by
  obtain ⟨n, h⟩ := h
  refine ⟨n + 1, fun m hm => ?_⟩
  obtain ⟨m, rfl⟩ : ∃ k, m = k + 1 := ⟨m - 1, by omega⟩
  exact h m (by omega)

/-- With enough fuel, `x` started in `p` ends, with `Q` of what it returns. -/
def Can {α : Type} (x : (NT → M Ret) → M α) (p : P) (Q : α → P → Prop) : Prop := ∃ a p', Ev x p a p' ∧ Q a p'

theorem can_bind {α β : Type} {x : (NT → M Ret) → M α} {f : α → (NT → M Ret) → M β} {p : P} {Q : β → P → Prop}
    (h : Can x p (fun a p1 => Can (f a) p1 Q)) : Can (fun R => x R >>= fun a => f a R) p Q := by
  obtain ⟨a, p1, e1, b, p2, e2, q⟩ := h
  exact ⟨b, p2, ev_bind e1 e2, q⟩

theorem can_mono {α : Type} {x : (NT → M Ret) → M α} {p : P} {Q Q' : α → P → Prop} (h : Can x p Q) (k : ∀ a p', Q a p' → Q' a p') : Can x p Q' := by
  obtain ⟨a, p1, e, q⟩ := h
  exact ⟨a, p1, e, k _ _ q⟩

theorem can_rec {nt : NT} {p : P} {Q : Ret → P → Prop} (h : Can (fun R => body R nt) p Q) : Can (fun R => R nt) p Q := by
  obtain ⟨a, p1, e1, q⟩ := h
  exact ⟨a, p1, ev_rec e1, q⟩

theorem can_of {α : Type} {x : M α} {p p' : P} {a : α} {Q : α → P → Prop} (h : x p = .ok (some (a, p'))) (q : Q a p') : Can (fun _ => x) p Q :=
  ⟨a, p', ev_of h, q⟩

theorem can_pure {α : Type} {a : α} {p : P} {Q : α → P → Prop} (q : Q a p) : Can (fun _ => (pure a : M α)) p Q := can_of rfl q

theorem can_done {p : P} {Q : Ret → P → Prop} (q : Q ⟨0, 0, false⟩ p) : Can (fun _ => done) p Q := can_of rfl q

/-- A step without calls. -/
theorem can_step {α β : Type} {x : M α} {f : α → (NT → M Ret) → M β} {p p' : P} {a : α} {Q : β → P → Prop} (h : x p = .ok (some (a, p')))
    (k : Can (f a) p' Q) : Can (fun R => x >>= fun a => f a R) p Q := can_bind (can_of h k)

theorem can_tok {β : Type} {f : Tok → (NT → M Ret) → M β} {p : P} {Q : β → P → Prop} (h : Can (f p.tok) p Q) : Can (fun R => tok >>= fun a => f a R) p Q :=
  can_step rfl h

theorem can_ask {α β : Type} {g : P → α} {f : α → (NT → M Ret) → M β} {p : P} {Q : β → P → Prop} (h : Can (f (g p)) p Q) :
    Can (fun R => ask g >>= fun a => f a R) p Q :=
  can_step rfl h

theorem can_upd {β : Type} {g : P → P} {f : Unit → (NT → M Ret) → M β} {p : P} {Q : β → P → Prop} (h : Can (f ()) (g p) Q) :
    Can (fun R => upd g >>= fun a => f a R) p Q :=
  can_step rfl h

theorem can_skip {α β : Type} {a : α} {f : α → (NT → M Ret) → M β} {p : P} {Q : β → P → Prop} (h : Can (f a) p Q) :
    Can (fun R => (pure a : M α) >>= fun a => f a R) p Q :=
  can_step rfl h

theorem can_pos {α : Type} {c : Prop} [Decidable c] {x y : (NT → M Ret) → M α} {p : P} {Q : α → P → Prop} (hc : c) (h : Can x p Q) :
    Can (fun R => if c then x R else y R) p Q := by
  simpa only [if_pos hc] using h

theorem can_neg {α : Type} {c : Prop} [Decidable c] {x y : (NT → M Ret) → M α} {p : P} {Q : α → P → Prop} (hc : ¬ c) (h : Can y p Q) :
    Can (fun R => if c then x R else y R) p Q := by
  simpa only [if_neg hc] using h

/-! ### What a run does to the state -/

/-- The tokens from the current one on. -/
def View (p : P) (ts : List T2) : Prop :=
  p.tok.type ≠ .statend ∧ ts = (p.tok.type, p.tok.value) :: (p.toks.filter (fun t => decide (t.type ≠ .statend))).map (fun t => (t.type, t.value))

/-- The deciding part of the state. -/
def cs (p : P) : CS := ⟨p.labels, p.symstack, p.strings⟩

/-- A chunk without debug information. -/
def plain (c : Chunk) : EC := ⟨c.label, c.code.map Prod.fst, c.sym⟩

/-- From `p` to `p'` this was emitted. -/
structure Go (p p' : P) (o : Out) : Prop where
  code : p'.code.map Prod.fst = p.code.map Prod.fst ++ o.code
  chunks : p'.chunks.map plain = p.chunks.map plain ++ o.news
  cs : cs p' = o.cs
  fin : p'.fin = p.fin

theorem Go.trans {p p1 p2 : P} {a b : Out} (h1 : Go p p1 a) (h2 : Go p1 p2 b) : Go p p2 ⟨a.code ++ b.code, a.news ++ b.news, b.cs⟩ where
  code := by rw [h2.code, h1.code, List.append_assoc]
  chunks := by rw [h2.chunks, h1.chunks, List.append_assoc]
  cs := h2.cs
  fin := by rw [h2.fin, h1.fin]

theorem seq_some {x y : C} {c : CS} {o : Out} (h : (x ⊹ y) c = some o) : ∃ a b, x c = some a ∧ y a.cs = some b ∧ o = ⟨a.code ++ b.code, a.news ++ b.news, b.cs⟩ := by
  unfold seqO at h
  cases hx : x c with
  | none => rw [hx] at h; cases h
  | some a =>
    rw [hx] at h
    simp only at h
    cases hy : y a.cs with
    | none => rw [hy] at h; cases h
    | some b =>
      rw [hy] at h
      simp only [Option.some.injEq] at h
      exact ⟨a, b, rfl, hy, h.symm⟩

theorem seq_eq {x y : C} {c : CS} {a b : Out} (h1 : x c = some a) (h2 : y a.cs = some b) : (x ⊹ y) c = some ⟨a.code ++ b.code, a.news ++ b.news, b.cs⟩ := by
  unfold seqO
  rw [h1]
  simp only
  rw [h2]

/-- The next token is none of these. -/
def Nxt (bad : List TT) (rest : List T2) : Prop := ∃ t v r, rest = (t, v) :: r ∧ t ∉ bad

theorem Nxt.mono {bad bad' : List TT} {rest : List T2} (h : Nxt bad rest) (hb : ∀ t ∈ bad', t ∈ bad) : Nxt bad' rest := by
  obtain ⟨t, v, r, rfl, h⟩ := h
  exact ⟨t, v, r, rfl, fun k => h (hb t k)⟩

theorem nxt_of {bad : List TT} {t : TT} {v : Bytes} {r : List T2} (h : t ∉ bad) : Nxt bad ((t, v) :: r) := ⟨t, v, r, rfl, h⟩

theorem View.type {p : P} {t : TT} {v : Bytes} {r : List T2} (h : View p ((t, v) :: r)) : p.tok.type = t := by
  have := h.2
  simp only [List.cons.injEq, Prod.mk.injEq] at this
  exact this.1.1.symm

theorem View.value {p : P} {t : TT} {v : Bytes} {r : List T2} (h : View p ((t, v) :: r)) : p.tok.value = v := by
  have := h.2
  simp only [List.cons.injEq, Prod.mk.injEq] at this
  exact this.1.2.symm

theorem View.nxt {p : P} {bad : List TT} {rest : List T2} (h : View p rest) (hn : Nxt bad rest) : p.tok.type ∉ bad := by
  obtain ⟨t, v, r, rfl, k⟩ := hn
  rw [h.type]
  exact k

/-- Everything but the tokens. -/
def Same (p p' : P) : Prop := p'.labels = p.labels ∧ p'.code = p.code ∧ p'.chunks = p.chunks ∧ p'.symstack = p.symstack ∧ p'.strings = p.strings ∧ p'.fin = p.fin

theorem Same.cs {p p' : P} (h : Same p p') : cs p' = cs p := by
  unfold Comp.cs
  rw [h.1, h.2.2.2.1, h.2.2.2.2.1]

theorem Same.go {p p' : P} (h : Same p p') : Go p p' ⟨[], [], Comp.cs p⟩ := ⟨by rw [h.2.1, List.append_nil], by rw [h.2.2.1, List.append_nil], h.cs, h.2.2.2.2.2⟩

theorem dropWhile_filter {l : List Tok} :
    (match l.dropWhile (fun t => decide (t.type = .statend)) with
      | [] => l.filter (fun t => decide (t.type ≠ .statend)) = []
      | t :: r => t.type ≠ .statend ∧ l.filter (fun t => decide (t.type ≠ .statend)) = t :: r.filter (fun t => decide (t.type ≠ .statend))) := by
  induction l with
  | nil => rfl
  | cons t l ih =>
    by_cases h : t.type = .statend
    · rw [List.dropWhile_cons_of_pos (by simp [h]), List.filter_cons_of_neg (by simp [h])]
      exact ih
    · rw [List.dropWhile_cons_of_neg (by simp [h]), List.filter_cons_of_pos (by simp [h])]
      exact ⟨h, rfl⟩

theorem fetch_ok {p : P} {t : T2} {ts : List T2} (h : View p (t :: ts)) (hne : ts ≠ []) : ∃ p', fetch p = .ok (some ((), p')) ∧ View p' ts ∧ Same p p' := by
  have hd := h.2
  simp only [List.cons.injEq] at hd
  have := @dropWhile_filter p.toks
  unfold fetch
  cases hw : p.toks.dropWhile (fun t => decide (t.type = .statend)) with
  | nil =>
    rw [hw] at this
    simp only at this
    rw [this] at hd
    exact absurd hd.2 hne
  | cons u r =>
    rw [hw] at this
    simp only at this
    refine ⟨_, rfl, ⟨this.1, ?_⟩, rfl, rfl, rfl, rfl, rfl, rfl⟩
    rw [hd.2, this.2]
    rfl

theorem Nxt.ne {bad : List TT} {rest : List T2} (h : Nxt bad rest) : rest ≠ [] := by
  obtain ⟨t, v, r, rfl, _⟩ := h
  simp

/-- Take a token. -/
theorem can_fetch {β : Type} {f : Unit → (NT → M Ret) → M β} {p : P} {Q : β → P → Prop} {t : T2} {ts : List T2} (h : View p (t :: ts)) (hne : ts ≠ [])
    (k : ∀ p1, View p1 ts → Same p p1 → Can (f ()) p1 Q) : Can (fun R => Parser.fetch >>= fun a => f a R) p Q := by
  obtain ⟨p1, e, v, s⟩ := fetch_ok h hne
  exact can_step e (k p1 v s)

/-- Emit a line. -/
def emitted (l : Ln) (p : P) : P := { p with code := p.code ++ [(l, mark p.tok)] }

theorem can_emit {β : Type} {f : Unit → (NT → M Ret) → M β} {p : P} {Q : β → P → Prop} {l : Ln} (h : Can (f ()) (emitted l p) Q) :
    Can (fun R => emit l >>= fun a => f a R) p Q :=
  can_step rfl h

theorem View.emitted {l : Ln} {p : P} {ts : List T2} (h : View p ts) : View (emitted l p) ts := h

theorem emitted_go {l : Ln} {p : P} : Go p (emitted l p) ⟨[l], [], cs p⟩ := ⟨by simp [emitted], by simp [emitted], rfl, rfl⟩

/-- One more line. -/
theorem Go.emitted {l : Ln} {p p' : P} {o : Out} (h : Go p p' o) : Go p (emitted l p') ⟨o.code ++ [l], o.news, o.cs⟩ := by
  have := h.trans (emitted_go (l := l))
  rw [h.cs] at this
  simpa using this

/-- Nothing more. -/
theorem Go.same {p p1 p2 : P} {o : Out} (g : Go p p1 o) (s : Same p1 p2) : Go p p2 o := by
  have := g.trans s.go
  rw [g.cs] at this
  simpa using this

/-- Nothing before. -/
theorem Same.then {p p1 p2 : P} {o : Out} (s : Same p p1) (g : Go p1 p2 o) : Go p p2 o := by
  have := s.go.trans g
  simpa using this

theorem Go.refl (p : P) : Go p p ⟨[], [], Comp.cs p⟩ := ⟨by simp, by simp, rfl, rfl⟩

theorem Same.refl (p : P) : Same p p := ⟨rfl, rfl, rfl, rfl, rfl, rfl⟩

theorem Same.trans {p p1 p2 : P} (h1 : Same p p1) (h2 : Same p1 p2) : Same p p2 :=
  ⟨h2.1.trans h1.1, h2.2.1.trans h1.2.1, h2.2.2.1.trans h1.2.2.1, h2.2.2.2.1.trans h1.2.2.2.1, h2.2.2.2.2.1.trans h1.2.2.2.2.1, h2.2.2.2.2.2.trans h1.2.2.2.2.2⟩

theorem can_expect {β : Type} {t : TT} {f : Unit → (NT → M Ret) → M β} {p : P} {Q : β → P → Prop} (ht : p.tok.type = t) (h : Can (f ()) p Q) :
    Can (fun R => expect t >>= fun a => f a R) p Q := by
  refine can_step ?_ h
  show (if p.tok.type = t then (pure () : M Unit) else fail) p = _
  rw [if_pos ht]
  rfl

/-! ### Symbol tables keep their number -/

theorem onBase_length (f : Syms → Syms) : ∀ st : List Syms, (onBase f st).length = st.length
  | [] => rfl
  | [_] => rfl
  | t :: u :: r => by
    show (t :: onBase f (u :: r)).length = _
    rw [List.length_cons, onBase_length f (u :: r)]
    rfl

theorem onTop_length (f : Syms → Syms) (st : List Syms) : (onTop f st).length = st.length := by cases st <;> rfl

theorem addGlobal_len (x : Bytes) (c : CS) : (addGlobal x c).symstack.length = c.symstack.length := onBase_length _ _

theorem addLocal_len (x : Bytes) (c : CS) : (addLocal x c).symstack.length = c.symstack.length := onTop_length _ _

theorem known_len (x : Bytes) (c : CS) : (known x c).symstack.length = c.symstack.length := by
  unfold known
  split
  · exact addGlobal_len x c
  · rfl

theorem addParam_len (x : Bytes) (c : CS) : (addParam c x).symstack.length = c.symstack.length := by
  unfold addParam
  split
  · rfl
  · exact addLocal_len x c

theorem params_len (xs : List Bytes) : ∀ c : CS, (xs.foldl addParam c).symstack.length = c.symstack.length := by
  induction xs with
  | nil => exact fun _ => rfl
  | cons x xs ih => intro c; rw [List.foldl_cons, ih, addParam_len]

theorem scope_len (c : CS) : (scope c).symstack.length = c.symstack.length + 1 := by
  unfold scope
  split
  · rw [addParam_len]; rfl
  · rfl

/-- A compilation that keeps the number of symbol tables. -/
def Keeps (x : C) : Prop := ∀ c o, x c = some o → o.cs.symstack.length = c.symstack.length

theorem Keeps.seq {x y : C} (hx : Keeps x) (hy : Keeps y) : Keeps (x ⊹ y) := by
  intro c o h
  obtain ⟨a, b, h1, h2, rfl⟩ := seq_some h
  exact (hy _ _ h2).trans (hx _ _ h1)

theorem keeps_put (l : List Ln) : Keeps (put l) := by
  intro c o h
  cases h
  rfl

theorem keeps_str (s : Bytes) (k : Nat → List Ln) : Keeps (withStr s k) := by
  intro c o h
  cases h
  rfl

theorem body_some {x : C} {c : CS} {o : Out} (h : bodyC x c = some o) : ∃ b, x c = some b ∧
    o = ⟨b.code ++ (if b.cs.top.length - c.top.length ≠ 0 then [.num 43 ((b.cs.top.length - c.top.length : Nat) : Int)] else []), b.news,
      { b.cs with symstack := b.cs.symstack.tail }⟩ := by
  unfold bodyC at h
  cases hx : x c with
  | none => rw [hx] at h; cases h
  | some b =>
    rw [hx] at h
    simp only [Option.some.injEq] at h
    exact ⟨b, rfl, h.symm⟩

theorem body_len {x : C} (hx : Keeps x) {c : CS} {o : Out} (h : bodyC x c = some o) : o.cs.symstack.length = c.symstack.length - 1 := by
  obtain ⟨b, h1, rfl⟩ := body_some h
  show b.cs.symstack.tail.length = _
  rw [List.length_tail, hx _ _ h1]

theorem chunk_some {sym : Option (Bytes × Nat)} {en : CS → CS} {x : C} {c : CS} {o : Out} (h : chunkC sym en x c = some o) :
    ∃ b, bodyC x (en { c with labels := c.labels + 1 }) = some b ∧ o = ⟨[], ⟨c.labels, b.code ++ [.op 5], sym⟩ :: b.news, b.cs⟩ := by
  unfold chunkC at h
  cases hx : bodyC x (en { c with labels := c.labels + 1 }) with
  | none => rw [hx] at h; cases h
  | some b =>
    rw [hx] at h
    simp only [Option.some.injEq] at h
    exact ⟨b, rfl, h.symm⟩

theorem chunk_keeps {sym : Option (Bytes × Nat)} {en : CS → CS} {x : C} (hx : Keeps x) (he : ∀ c, (en c).symstack.length = c.symstack.length + 1) :
    Keeps (chunkC sym en x) := by
  intro c o h
  obtain ⟨b, h1, rfl⟩ := chunk_some h
  have := body_len hx h1
  rw [he] at this
  exact this

theorem keeps_labels {n : Nat} {k : Nat → C} (h : ∀ l, Keeps (k l)) : Keeps (withLabels n k) := fun c o e => h c.labels { c with labels := c.labels + n } o e

theorem enter_len (ps : List Bytes) (c : CS) : (ps.foldl addParam (scope c)).symstack.length = c.symstack.length + 1 := by
  rw [params_len, scope_len]

theorem keeps_key (k : Key) : Keeps (keyC k) := by
  cases k with
  | name s => exact keeps_str s (fun i => [.num 37 i])
  | num t => exact keeps_put _

theorem comp_keeps (a : Ast) : ∀ m, Keeps (comp a m) := by
  induction a with
  | nil => exact fun _ => keeps_put _
  | num t => exact fun _ => keeps_put _
  | str s => exact fun _ => keeps_str _ _
  | bin o a b iha ihb => exact fun _ => ((iha _).seq (ihb _)).seq (keeps_put _)
  | un o a iha => exact fun _ => (iha _).seq (keeps_put _)
  | lam ps b ihb =>
    intro m c o h
    exact ((keeps_put [.ref 40 c.labels]).seq (chunk_keeps (ihb _) (enter_len ps))) c o h
  | tnew => exact fun _ => keeps_put _
  | tset t k v iht ihv => exact fun _ => ((((iht _).seq (keeps_put _)).seq (keeps_key k)).seq (ihv _)).seq (keeps_put _)
  | id x =>
    intro m c o h
    cases h
    exact known_len x c
  | field r s ih => exact fun _ => ((ih _).seq (keeps_str _ _)).seq (keeps_put _)
  | index r e ihr ihe => exact fun _ => (((ihr _).seq (keeps_put _)).seq (ihe _)).seq (keeps_put _)
  | call r as ihr iha => exact fun _ => (((keeps_put _).seq (ihr _)).seq (iha _)).seq (keeps_put _)
  | noArg => exact fun _ => keeps_put _
  | arg as a ihs iha => exact fun _ => (ihs _).seq (iha _)
  | decl x =>
    intro m c o h
    simp only [comp] at h
    split at h
    · cases h
    · split at h
      · cases h; exact addGlobal_len x c
      · cases h; exact addLocal_len x c
  | init x e ih =>
    intro m c o h
    simp only [comp] at h
    split at h
    · cases h
    · split at h
      · exact (((keeps_put _).seq (ih _)).seq (keeps_put _) _ _ h).trans (addGlobal_len x c)
      · exact (((keeps_put _).seq (ih _)).seq (keeps_put _) _ _ h).trans (addLocal_len x c)
  | assign r e ihr ihe => exact fun m c o h => (((ihr .lval).seq (ihe .val)).seq (keeps_put (storeOp r c))) c o h
  | run r ih => exact fun _ => (ih _).seq (keeps_put _)
  | func f ps b ih =>
    intro m c o h
    simp only [comp] at h
    split at h
    · cases h
    · exact (chunk_keeps (ih _) (enter_len ps) _ _ h).trans (known_len f c)
  | ifs c a ihc iha => exact fun _ => keeps_labels fun l => (((ihc _).seq (keeps_put _)).seq (iha _)).seq (keeps_put _)
  | ite c a b ihc iha ihb =>
    exact fun _ => keeps_labels fun l => (((((ihc _).seq (keeps_put _)).seq (iha _)).seq (keeps_put _)).seq (ihb _)).seq (keeps_put _)
  | while_ c a ihc iha => exact fun _ => keeps_labels fun l => ((((keeps_put _).seq (ihc _)).seq (keeps_put _)).seq (iha _)).seq (keeps_put _)
  | for_ i c u a ihi ihc ihu iha =>
    exact fun _ => keeps_labels fun l =>
      (((((((ihi _).seq (keeps_put _)).seq (ihc _)).seq (keeps_put _)).seq (ihu _)).seq (keeps_put _)).seq (iha _)).seq (keeps_put _)
  | ret0 => exact fun _ => keeps_put _
  | ret e ih => exact fun _ => (ih _).seq (keeps_put _)
  | block b ih =>
    intro m c o h
    have := body_len (ih _) h
    exact this
  | skip => exact fun _ => keeps_put _
  | seq s l ihs ihl => exact fun _ => (ihs _).seq (ihl _)

theorem comp_ne {a : Ast} {m : Mode} {c : CS} {o : Out} (h : comp a m c = some o) (hc : c.symstack ≠ []) : o.cs.symstack ≠ [] := by
  have := comp_keeps a m c o h
  intro e
  rw [e] at this
  exact hc (List.length_eq_zero_iff.mp this.symm)

end Buzz.Comp
