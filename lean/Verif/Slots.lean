import Verif.CompTabs

/-
The number of local slots along compiled code.

A compiler that records, at the beginning and at the end of every phrase, how many symbols it has in scope, and the proof that the
instructions before such a record leave exactly that many slots.
-/
namespace Buzz.Comp

open Buzz.Msg Buzz.Lex Buzz.VM Buzz.Parser Buzz.Lang

/-! ### The compiler with records -/

/-- A line, or a record of the number of symbols in scope. -/
inductive Rec where
  | ln (l : Ln)
  | mark (n : Nat)

/-- The lines without the records. -/
def rows : List Rec → List Ln
  | [] => []
  | .ln l :: r => l :: rows r
  | .mark _ :: r => rows r

/-- As `Out`, with records. -/
structure ROut where
  code : List Rec
  news : List EC
  cs : CS

/-- The outcome without the records. -/
def ROut.plain (o : ROut) : Out := ⟨rows o.code, o.news, o.cs⟩

/-- As `C`, with records. -/
abbrev CR := CS → Option ROut

/-- As `seqO`. -/
def seqR (x y : CR) : CR := fun cs =>
  match x cs with
  | none => none
  | some a =>
    match y a.cs with
    | none => none
    | some b => some ⟨a.code ++ b.code, a.news ++ b.news, b.cs⟩

infixl:60 " ⊹⊹ " => seqR

/-- A compilation without records. -/
def bare (x : C) : CR := fun cs =>
  match x cs with
  | none => none
  | some o => some ⟨o.code.map .ln, o.news, o.cs⟩

/-- A compilation with records at its beginning and its end. -/
def marked (x : CR) : CR := fun cs =>
  match x cs with
  | none => none
  | some o => some ⟨.mark cs.top.length :: (o.code ++ [.mark o.cs.top.length]), o.news, o.cs⟩

/-- As `bodyC`. -/
def bodyR (x : CR) : CR := fun cs =>
  match x cs with
  | none => none
  | some o =>
    some ⟨o.code ++ (if o.cs.top.length - cs.top.length ≠ 0 then [.ln (.num 43 ((o.cs.top.length - cs.top.length : Nat) : Int))] else []), o.news,
      { o.cs with symstack := o.cs.symstack.tail }⟩

/-- As `withLabels`. -/
def labelsR (n : Nat) (k : Nat → CR) : CR := fun cs => k cs.labels { cs with labels := cs.labels + n }

/-- As `comp`, with records at the beginning and the end of every phrase.  Functions are compiled to chunks of their own. -/
def compR : Ast → Mode → CR
  | .bin o a b, _ => marked (compR a .val ⊹⊹ compR b .val ⊹⊹ bare (put [.op (binOp o)]))
  | .un o a, _ => marked (compR a .val ⊹⊹ bare (put [.op (unOp o)]))
  | .tset t k v, _ => marked (compR t .val ⊹⊹ bare (put [.op 3]) ⊹⊹ bare (keyC k) ⊹⊹ compR v .val ⊹⊹ bare (put [.op 31]))
  | .field r s, m => marked (compR r .val ⊹⊹ bare (withStr s (fun i => (if m = .callee then [.op 3] else []) ++ [.num 37 i])) ⊹⊹
      bare (put (if m = .lval then [] else [.op 32])))
  | .index r e, m => marked (compR r .val ⊹⊹ bare (put (if m = .callee then [.op 3] else [])) ⊹⊹ compR e .val ⊹⊹ bare (put (if m = .lval then [] else [.op 32])))
  | .call r as, m => marked (bare (put (if m = .callee then [.op 2] else [])) ⊹⊹ compR r .callee ⊹⊹ compR as .val ⊹⊹ bare (put [.num 36 (nargs as), .op 33]))
  | .arg as a, _ => marked (compR as .val ⊹⊹ compR a .val)
  | .init x e, _ => marked fun cs =>
    if isLocal x cs then none
    else if cs.symstack.length = 1 then
      (bare (put [.num 37 (stringAdd cs.strings x).2]) ⊹⊹ compR e .val ⊹⊹ bare (put [.op 29])) (addGlobal x cs)
    else (bare (put [.op 2, .num 42 cs.top.length]) ⊹⊹ compR e .val ⊹⊹ bare (put [.num 42 cs.top.length])) (addLocal x cs)
  | .assign r e, _ => marked fun cs => (compR r .lval ⊹⊹ compR e .val ⊹⊹ bare (put (storeOp r cs))) cs
  | .run r, _ => marked (compR r .val ⊹⊹ bare (put [.op 4]))
  | .ifs c a, _ => marked (labelsR 2 fun l => compR c .val ⊹⊹ bare (put [.ref 45 l]) ⊹⊹ compR a .val ⊹⊹ bare (put [.lab l]))
  | .ite c a b, _ => marked (labelsR 2 fun l =>
    compR c .val ⊹⊹ bare (put [.ref 45 l]) ⊹⊹ compR a .val ⊹⊹ bare (put [.ref 44 (l + 1), .lab l]) ⊹⊹ compR b .val ⊹⊹ bare (put [.lab (l + 1)]))
  | .while_ c a, _ => marked (labelsR 2 fun l =>
    bare (put [.lab l]) ⊹⊹ compR c .val ⊹⊹ bare (put [.ref 45 (l + 1)]) ⊹⊹ compR a .val ⊹⊹ bare (put [.ref 44 l, .lab (l + 1)]))
  | .for_ i c u a, _ => marked (labelsR 4 fun l =>
    compR i .val ⊹⊹ bare (put [.lab l]) ⊹⊹ compR c .val ⊹⊹ bare (put [.ref 46 (l + 2), .ref 44 (l + 3), .lab (l + 1)]) ⊹⊹ compR u .val ⊹⊹
      bare (put [.ref 44 l, .lab (l + 2)]) ⊹⊹ compR a .val ⊹⊹ bare (put [.ref 44 (l + 1), .lab (l + 3)]))
  | .ret e, _ => marked (compR e .val ⊹⊹ bare (put [.op 6]))
  | .block b, _ => marked fun cs =>
    bodyR (compR b .val) { cs with symstack := (if cs.symstack.length = 1 then [] else cs.symstack.headD []) :: cs.symstack }
  | .seq s l, _ => marked (compR s .val ⊹⊹ compR l .val)
  | a, m => marked (bare (comp a m))

/-! ### Without the records it is the compiler -/

theorem rows_append (a b : List Rec) : rows (a ++ b) = rows a ++ rows b := by
  induction a with
  | nil => rfl
  | cons x a ih => cases x <;> simp [rows, ih]

theorem rows_ln (l : List Ln) : rows (l.map .ln) = l := by
  induction l with
  | nil => rfl
  | cons x l ih => simp [rows, ih]

/-- The two compilations agree. -/
def Erases (x : CR) (y : C) : Prop := ∀ c, (x c).map ROut.plain = y c

theorem Erases.seq {x x' : CR} {y y' : C} (h : Erases x y) (h' : Erases x' y') : Erases (x ⊹⊹ x') (y ⊹ y') := by
  intro c
  have e := h c
  unfold seqR seqO
  rw [← e]
  cases x c with
  | none => rfl
  | some a =>
    simp only [Option.map_some]
    have e' := h' a.cs
    show _ = match y' a.cs with | none => none | some b => _
    rw [← e']
    cases x' a.cs with
    | none => rfl
    | some b => simp [ROut.plain, rows_append]

theorem erases_bare (y : C) : Erases (bare y) y := by
  intro c
  unfold bare
  cases y c with
  | none => rfl
  | some o => simp [ROut.plain, rows_ln]

theorem Erases.marked {x : CR} {y : C} (h : Erases x y) : Erases (marked x) y := by
  intro c
  rw [← h c]
  unfold Comp.marked
  cases x c with
  | none => rfl
  | some o => simp [ROut.plain, rows, rows_append]

theorem Erases.body {x : CR} {y : C} (h : Erases x y) : Erases (bodyR x) (bodyC y) := by
  intro c
  unfold bodyR bodyC
  rw [← h c]
  cases x c with
  | none => rfl
  | some o =>
    simp only [Option.map_some, ROut.plain, rows_append]
    split <;> rfl

theorem Erases.labels {n : Nat} {k : Nat → CR} {k' : Nat → C} (h : ∀ l, Erases (k l) (k' l)) : Erases (labelsR n k) (withLabels n k') :=
  fun c => h c.labels _

/-- **The lines of the compiler with records are those of the compiler.** -/
theorem compR_plain (a : Ast) : ∀ m, Erases (compR a m) (comp a m) := by
  have p : ∀ l, Erases (bare (put l)) (put l) := fun l => erases_bare _
  induction a with
  | nil => exact fun _ => (erases_bare _).marked
  | num t => exact fun _ => (erases_bare _).marked
  | str s => exact fun _ => (erases_bare _).marked
  | bin o a b iha ihb => exact fun _ => (((iha _).seq (ihb _)).seq (p _)).marked
  | un o a iha => exact fun _ => ((iha _).seq (p _)).marked
  | lam ps b ih => exact fun _ => (erases_bare _).marked
  | tnew => exact fun _ => (erases_bare _).marked
  | tset t k v iht ihv => exact fun _ => (((((iht _).seq (p _)).seq (erases_bare _)).seq (ihv _)).seq (p _)).marked
  | id x => exact fun _ => (erases_bare _).marked
  | field r s ih => exact fun _ => (((ih _).seq (erases_bare _)).seq (p _)).marked
  | index r e ihr ihe => exact fun _ => ((((ihr _).seq (p _)).seq (ihe _)).seq (p _)).marked
  | call r as ihr ihs => exact fun _ => ((((p _).seq (ihr _)).seq (ihs _)).seq (p _)).marked
  | noArg => exact fun _ => (erases_bare _).marked
  | arg as a ih1 ih2 => exact fun _ => ((ih1 _).seq (ih2 _)).marked
  | decl x => exact fun _ => (erases_bare _).marked
  | init x e ih =>
    intro m
    refine Erases.marked (fun c => ?_)
    simp only [comp]
    by_cases h1 : isLocal x c = true
    · rw [if_pos h1, if_pos h1]
      rfl
    · rw [if_neg h1, if_neg h1]
      by_cases h2 : c.symstack.length = 1
      · rw [if_pos h2, if_pos h2]
        exact (((p _).seq (ih _)).seq (p _)) _
      · rw [if_neg h2, if_neg h2]
        exact (((p _).seq (ih _)).seq (p _)) _
  | assign r e ihr ihe => exact fun _ => Erases.marked fun c => (((ihr _).seq (ihe _)).seq (p _)) c
  | run r ih => exact fun _ => ((ih _).seq (p _)).marked
  | func f ps b ih => exact fun _ => (erases_bare _).marked
  | ifs c a ihc iha => exact fun _ => (Erases.labels fun _ => (((ihc _).seq (p _)).seq (iha _)).seq (p _)).marked
  | ite c a b ihc iha ihb => exact fun _ => (Erases.labels fun _ => (((((ihc _).seq (p _)).seq (iha _)).seq (p _)).seq (ihb _)).seq (p _)).marked
  | while_ c a ihc iha => exact fun _ => (Erases.labels fun _ => ((((p _).seq (ihc _)).seq (p _)).seq (iha _)).seq (p _)).marked
  | for_ i c u a ihi ihc ihu iha =>
    exact fun _ => (Erases.labels fun _ => (((((((ihi _).seq (p _)).seq (ihc _)).seq (p _)).seq (ihu _)).seq (p _)).seq (iha _)).seq (p _)).marked
  | ret0 => exact fun _ => (erases_bare _).marked
  | ret e ih => exact fun _ => ((ih _).seq (p _)).marked
  | block b ih => exact fun _ => Erases.marked fun c => (ih _).body _
  | skip => exact fun _ => (erases_bare _).marked
  | seq s l ih1 ih2 => exact fun _ => ((ih1 _).seq (ih2 _)).marked

/-! ### Counting slots -/

/-- The number of slots after a line. -/
def grow (d : Nat) : Rec → Nat
  | .ln (.num i v) => if i = 42 then (if v = d then d + 1 else d) else if i = 43 then d - v.toNat else d
  | _ => d

/-- The number of slots after the code. -/
def slots (d : Nat) (l : List Rec) : Nat := l.foldl grow d

/-- The label `k` is in the code, with `n` slots. -/
def Has (d : Nat) (code : List Rec) (k n : Nat) : Prop := ∃ pre post, code = pre ++ .ln (.lab k) :: post ∧ slots d pre = n

/-- The line fits the number `n` of slots: records agree with it, local variables are below it, a new one is next to it, not all of
them are removed, and jumps go to places with as many slots, in the code or according to `G`. -/
def Suits (G : Nat → Nat → Prop) (d : Nat) (code : List Rec) (n : Nat) : Rec → Prop
  | .mark k => k = n
  | .ln (.num i v) => (i = 41 → 0 ≤ v ∧ v < n) ∧ (i = 42 → 0 ≤ v ∧ v ≤ n) ∧ (i = 43 → 0 ≤ v ∧ v < n) ∧ i ∈ [36, 37, 41, 42, 43]
  | .ln (.ref i k) => i = 40 ∨ (i ∈ [44, 45, 46] ∧ (G k n ∨ Has d code k n))
  | .ln (.txt i _) => i ∈ [35, 36]
  | .ln (.op i) => i < 35 ∧ i ≠ 34 ∧ i ≠ 1
  | .ln (.lab _) => True
  | .ln .exit => False

/-- The code fits `d` slots at its beginning. -/
def Flow (G : Nat → Nat → Prop) (d : Nat) (code : List Rec) : Prop := ∀ pre x post, code = pre ++ x :: post → Suits G d code (slots d pre) x

theorem slots_append (d : Nat) (a b : List Rec) : slots d (a ++ b) = slots (slots d a) b := List.foldl_append

theorem Suits.mono {G G' : Nat → Nat → Prop} {d d' : Nat} {code code' : List Rec} {n : Nat} {x : Rec} (h : Suits G d code n x)
    (hG : ∀ k n, G k n → G' k n ∨ Has d' code' k n) (hH : ∀ k n, Has d code k n → Has d' code' k n) : Suits G' d' code' n x := by
  cases x with
  | mark k => exact h
  | ln l =>
    cases l with
    | ref i k =>
      rcases h with h | ⟨h, h1 | h1⟩
      · exact .inl h
      · exact .inr ⟨h, hG _ _ h1⟩
      · exact .inr ⟨h, .inr (hH _ _ h1)⟩
    | _ => exact h

theorem Has.left {d : Nat} {a : List Rec} {k n : Nat} (h : Has d a k n) (b : List Rec) : Has d (a ++ b) k n := by
  obtain ⟨pre, post, rfl, e⟩ := h
  exact ⟨pre, post ++ b, by simp, e⟩

theorem Has.right {d : Nat} {b : List Rec} {k n : Nat} {a : List Rec} (h : Has (slots d a) b k n) : Has d (a ++ b) k n := by
  obtain ⟨pre, post, rfl, e⟩ := h
  exact ⟨a ++ pre, post, by simp, by rw [slots_append, e]⟩

theorem Flow.append {G : Nat → Nat → Prop} {d : Nat} {a b : List Rec} (ha : Flow G d a) (hb : Flow G (slots d a) b) : Flow G d (a ++ b) := by
  intro pre x post e
  rcases List.append_eq_append_iff.mp e with ⟨a', e1, e2⟩ | ⟨c', e1, e2⟩
  · rw [e1, slots_append]
    exact (hb a' x post e2).mono (fun _ _ h => .inl h) (fun _ _ h => h.right)
  · cases c' with
    | nil =>
      rw [List.append_nil] at e1
      have := hb [] x post e2.symm
      rw [← e1]
      exact this.mono (fun _ _ h => .inl h) (fun _ _ h => h.right)
    | cons y c' =>
      simp only [List.cons_append, List.cons.injEq] at e2
      obtain ⟨rfl, -⟩ := e2
      exact (ha pre x c' e1).mono (fun _ _ h => .inl h) (fun _ _ h => h.left b)

theorem flow_nil (G : Nat → Nat → Prop) (d : Nat) : Flow G d [] := by
  intro pre x post e
  simp at e

theorem flow_one {G : Nat → Nat → Prop} {d : Nat} {x : Rec} (h : Suits G d [x] d x) : Flow G d [x] := by
  intro pre y post e
  cases pre with
  | nil =>
    simp only [List.nil_append, List.cons.injEq] at e
    obtain ⟨rfl, -⟩ := e
    exact h
  | cons z pre => simp at e

theorem Flow.cons {G : Nat → Nat → Prop} {d : Nat} {x : Rec} {b : List Rec} (h : Suits G d [x] d x) (hb : Flow G (grow d x) b) : Flow G d (x :: b) :=
  (flow_one h).append (a := [x]) hb

/-- Jumps to labels in the code need no permission. -/
theorem Flow.close {G G' : Nat → Nat → Prop} {d : Nat} {code : List Rec} (h : Flow G d code) (hG : ∀ k n, G k n → G' k n ∨ Has d code k n) : Flow G' d code :=
  fun pre x post e => (h pre x post e).mono hG (fun _ _ h => h)

/-- Compilation in a scope with `d` variables adds the variables `vs` and as many slots; `L` are labels in its code. -/
def Flows (G L : Nat → Nat → Prop) (d : Nat) (vs : List Bytes) (x : CR) : Prop := ∀ c o xs, xs.length = d → 0 < d → Loc c.symstack xs c.strings →
  x c = some o → Flow G d o.code ∧ slots d o.code = d + vs.length ∧ (∀ k n, L k n → Has d o.code k n) ∧ Loc o.cs.symstack (xs ++ vs) o.cs.strings

/-- No labels. -/
abbrev Non : Nat → Nat → Prop := fun _ _ => False

theorem seqR_some {x y : CR} {c : CS} {o : ROut} (h : (x ⊹⊹ y) c = some o) :
    ∃ a b, x c = some a ∧ y a.cs = some b ∧ o = ⟨a.code ++ b.code, a.news ++ b.news, b.cs⟩ := by
  unfold seqR at h
  cases hx : x c with
  | none => rw [hx] at h; cases h
  | some a =>
    rw [hx] at h
    simp only at h
    cases hy : y a.cs with
    | none => rw [hy] at h; cases h
    | some b =>
      rw [hy] at h
      cases h
      exact ⟨a, b, rfl, hy, rfl⟩

theorem Flows.seq {G L L' : Nat → Nat → Prop} {d d' : Nat} {vs ws : List Bytes} {x y : CR} (hx : Flows G L d vs x) (hy : Flows G L' d' ws y)
    (e : d' = d + vs.length := by first | rfl | simp) : Flows G (fun k n => L k n ∨ L' k n) d (vs ++ ws) (x ⊹⊹ y) := by
  subst e
  intro c o xs hd h0 hl h
  obtain ⟨a, b, h1, h2, rfl⟩ := seqR_some h
  obtain ⟨f1, s1, l1, t1⟩ := hx c a xs hd h0 hl h1
  obtain ⟨f2, s2, l2, t2⟩ := hy a.cs b (xs ++ vs) (by simp [hd]) (by omega) t1 h2
  refine ⟨f1.append (by rw [s1]; exact f2), ?_, ?_, by rw [← List.append_assoc]; exact t2⟩
  · rw [slots_append, s1, s2, List.length_append]; omega
  · rintro k n (h | h)
    · exact (l1 k n h).left _
    · exact Has.right (by rw [s1]; exact l2 k n h)

theorem Flows.seq0 {G L : Nat → Nat → Prop} {d d' : Nat} {vs : List Bytes} {x y : CR} (hx : Flows G L d vs x) (hy : Flows G Non d' [] y)
    (e : d' = d + vs.length := by first | rfl | simp) : Flows G L d vs (x ⊹⊹ y) := by
  have := hx.seq hy e
  rw [List.append_nil] at this
  intro c o xs hd h0 hl h
  obtain ⟨a1, a2, a3, a4⟩ := this c o xs hd h0 hl h
  exact ⟨a1, a2, fun k n h => a3 k n (.inl h), a4⟩

/-- Code alone. -/
theorem flows_put {G L : Nat → Nat → Prop} {d : Nat} {l : List Ln} (h : Flow G d (l.map .ln)) (hs : slots d (l.map .ln) = d) (hL : ∀ k n, L k n → Has d (l.map .ln) k n) :
    Flows G L d [] (bare (put l)) := by
  intro c o xs hd h0 hl e
  cases e
  exact ⟨h, hs, hL, by rw [List.append_nil]; exact hl⟩

theorem flows_nil {G : Nat → Nat → Prop} {d : Nat} : Flows G Non d [] (bare (put [])) := flows_put (flow_nil _ _) rfl (fun _ _ h => h.elim)

theorem flows_op {G : Nat → Nat → Prop} {d : Nat} {i : Nat} (h : i < 35 ∧ i ≠ 34 ∧ i ≠ 1) : Flows G Non d [] (bare (put [.op i])) :=
  flows_put (flow_one h) rfl (fun _ _ h => h.elim)

theorem flows_ops {G : Nat → Nat → Prop} {d : Nat} {p : Prop} [Decidable p] {l l' : List Ln} (h : Flows G Non d [] (bare (put l))) (h' : Flows G Non d [] (bare (put l'))) :
    Flows G Non d [] (bare (put (if p then l else l'))) := by
  split
  · exact h
  · exact h'

/-- Code with a string. -/
theorem flows_str {G : Nat → Nat → Prop} {d : Nat} {s : Bytes} {k : Nat → List Ln} (h : ∀ i, Flow G d ((k i).map .ln)) (hs : ∀ i, slots d ((k i).map .ln) = d) :
    Flows G Non d [] (bare (withStr s k)) := by
  intro c o xs hd h0 hl e
  cases e
  refine ⟨h _, hs _, fun _ _ h => h.elim, ?_⟩
  have : Tabs _ _ := (stacks_str s k).tabbed c _ (.fn xs) rfl hl
  exact this

theorem flows_pushs {G : Nat → Nat → Prop} {d i : Nat} : Flow G d ([Ln.num 37 i].map .ln) := flow_one ⟨by simp, by simp, by simp, by simp⟩

theorem constant_fits {G : Nat → Nat → Prop} {d : Nat} (t : Bytes) : Flow G d ([constant [] t].map .ln) ∧ slots d ([constant [] t].map .ln) = d := by
  unfold constant
  split
  · exact ⟨flow_one (by simp [Suits]), rfl⟩
  · exact ⟨flow_one (by simp [Suits]), rfl⟩

theorem flows_key {G : Nat → Nat → Prop} {d : Nat} (k : Key) : Flows G Non d [] (bare (keyC k)) := by
  cases k with
  | name s => exact flows_str (k := fun i => [.num 37 i]) (fun _ => flows_pushs) (fun _ => rfl)
  | num t => exact flows_put (constant_fits t).1 (constant_fits (G := G) t).2 (fun _ _ h => h.elim)

theorem Flows.marked {G L : Nat → Nat → Prop} {d : Nat} {vs : List Bytes} {x : CR} (h : Flows G L d vs x) : Flows G L d vs (marked x) := by
  intro c o xs hd h0 hl e
  unfold Comp.marked at e
  cases hx : x c with
  | none => rw [hx] at e; cases e
  | some a =>
    rw [hx] at e
    cases e
    obtain ⟨a1, a2, a3, a4⟩ := h c a xs hd h0 hl hx
    have t1 : c.top.length = d := by rw [Loc.top hl, table_length, hd]
    have t2 : a.cs.top.length = d + vs.length := by rw [Loc.top a4, table_length, List.length_append, hd]
    refine ⟨Flow.cons (x := .mark c.top.length) t1 (a1.append (flow_one ?_)), ?_, ?_, a4⟩
    · show a.cs.top.length = slots d a.code
      rw [t2, a2]
    · show slots d (a.code ++ [Rec.mark _]) = _
      rw [slots_append, a2]
      rfl
    · intro k n hk
      exact ((a3 k n hk).left [Rec.mark a.cs.top.length]).right (a := [Rec.mark c.top.length]) (d := d)

/-- Labels that are in the code. -/
theorem Flows.close {G G' L L' : Nat → Nat → Prop} {d : Nat} {vs : List Bytes} {x : CR} (h : Flows G L d vs x) (hG : ∀ k n, G k n → G' k n ∨ L k n)
    (hL : ∀ k n, L' k n → L k n) : Flows G' L' d vs x := by
  intro c o xs hd h0 hl e
  obtain ⟨a1, a2, a3, a4⟩ := h c o xs hd h0 hl e
  exact ⟨a1.close (fun k n h => (hG k n h).imp id (a3 k n)), a2, fun k n h => a3 k n (hL k n h), a4⟩

theorem Flows.labels {G L : Nat → Nat → Prop} {d m : Nat} {vs : List Bytes} {k : Nat → CR} (h : ∀ l, Flows G L d vs (k l)) : Flows G L d vs (labelsR m k) :=
  fun c o xs hd h0 hl e => h c.labels { c with labels := c.labels + m } o xs hd h0 hl e

/-! ### Phrases -/

/-- Nothing is declared in a part that may be skipped or repeated, other than in a block; neither in the phrase itself nor in functions. -/
def tidy : Ast → Prop
  | .bin _ a b => tidy a ∧ tidy b
  | .un _ a => tidy a
  | .tset t _ e => tidy t ∧ tidy e
  | .field r _ => tidy r
  | .index r e => tidy r ∧ tidy e
  | .call f as => tidy f ∧ tidy as
  | .arg as a => tidy as ∧ tidy a
  | .init _ e => tidy e
  | .assign r e => tidy r ∧ tidy e
  | .run r => tidy r
  | .ifs c a => tidy c ∧ tidy a ∧ decls a = []
  | .ite c a b => tidy c ∧ tidy a ∧ tidy b ∧ decls a = [] ∧ decls b = []
  | .while_ c a => tidy c ∧ tidy a ∧ decls c = [] ∧ decls a = []
  | .for_ i c u a => tidy i ∧ tidy c ∧ tidy u ∧ tidy a ∧ decls c = [] ∧ decls u = [] ∧ decls a = []
  | .ret e => tidy e
  | .block b => tidy b
  | .seq s l => tidy s ∧ tidy l
  | .lam _ b => tidy b
  | .func _ _ b => tidy b
  | _ => True

theorem Loc.sym {c : CS} {xs : List Bytes} (h : Loc c.symstack xs c.strings) (x : Bytes) :
    (symOf x c).global = true ∨ ((symOf x c).global = false ∧ (symOf x c).pos < xs.length) := by
  have hk : Loc (known x c).symstack xs (known x c).strings := tabs_known (sh := .fn xs) h
  unfold symOf
  by_cases hx : x ∈ xs
  · obtain ⟨i, hi⟩ := List.mem_iff_getElem?.mp hx
    rw [hk.lookup_in hi]
    exact .inr ⟨rfl, (List.getElem?_eq_some_iff.mp hi).1⟩
  · obtain ⟨b, hb, e⟩ := hk.lookup_out hx
    rw [e]
    cases hg : FMap.get b x with
    | none => exact .inl rfl
    | some s => exact .inl (hb _ (FMap.mem_of_get hg)).1

theorem flow_load {G : Nat → Nat → Prop} {d : Nat} {s : Sym} (h : s.global = true ∨ (s.global = false ∧ s.pos < d)) (call : Bool) :
    Flow G d ((loadOps s.pos s.global call).map .ln) ∧ slots d ((loadOps s.pos s.global call).map .ln) = d := by
  unfold loadOps
  rcases h with h | ⟨h, hp⟩
  · rw [if_pos h]
    cases call
    · exact ⟨Flow.cons (by simp [Suits]) (flow_one (by simp [Suits])), rfl⟩
    · exact ⟨Flow.cons (by simp [Suits]) (Flow.cons (by simp [Suits]) (flow_one (by simp [Suits]))), rfl⟩
  · rw [if_neg (by simp [h]), if_pos (by omega)]
    cases call
    · exact ⟨flow_one (by simp [Suits, hp]), rfl⟩
    · exact ⟨Flow.cons (by simp [Suits]) (flow_one (by simp [Suits, grow, hp])), rfl⟩

/-- A body: the variables are removed at its end. -/
theorem flow_body {G L : Nat → Nat → Prop} {d : Nat} {vs : List Bytes} {x : CR} {c : CS} {o : ROut} {xs : List Bytes} (hx : Flows G L d vs x)
    (e0 : xs.length = d) (h0 : 0 < d) (hl : Loc c.symstack xs c.strings) (h : bodyR x c = some o) : Flow G d o.code ∧ slots d o.code = d := by
  unfold bodyR at h
  cases hb : x c with
  | none => rw [hb] at h; cases h
  | some u =>
    rw [hb] at h
    cases h
    obtain ⟨f1, f2, _, f4⟩ := hx c u xs e0 h0 hl hb
    have s1 : u.cs.top.length = d + vs.length := by rw [Loc.top f4, table_length, List.length_append, e0]
    have s3 : c.top.length = d := by rw [Loc.top hl, table_length, e0]
    rw [s3, s1, Nat.add_sub_cancel_left]
    refine ⟨f1.append ?_, ?_⟩
    · split
      · refine flow_one ?_
        simp [Suits, f2]
        omega
      · exact flow_nil _ _
    · rw [slots_append, f2]
      split
      · simp [slots, grow]
      · rename_i hz
        simp only [ne_eq, Decidable.not_not] at hz
        rw [hz]
        rfl

/-- **In a function, compiled code has as many slots at the records as there are symbols in scope.** -/
theorem compR_flows (a : Ast) : ∀ (m : Mode) (G : Nat → Nat → Prop) (d : Nat), tidy a → Flows G Non d (decls a) (compR a m) := by
  have non : ∀ {L : Nat → Nat → Prop} {G : Nat → Nat → Prop} {d : Nat} {vs : List Bytes} {x : CR}, Flows G L d vs x → Flows G Non d vs x :=
    fun h => h.close (fun _ _ h => .inl h) (fun _ _ h => h.elim)
  have pre0 : ∀ {G : Nat → Nat → Prop} {d : Nat} {vs : List Bytes} {x y : CR}, Flows G Non d [] x → Flows G Non d vs y → Flows G Non d vs (x ⊹⊹ y) :=
    fun hx hy => non (hx.seq hy)
  have both : ∀ {G : Nat → Nat → Prop} {d : Nat} {vs ws : List Bytes} {x y : CR}, Flows G Non d vs x → Flows G Non (d + vs.length) ws y →
      Flows G Non d (vs ++ ws) (x ⊹⊹ y) := fun hx hy => non (hx.seq hy rfl)
  have lone : ∀ {a : Ast} {m : Mode} {G : Nat → Nat → Prop} {d : Nat}, decls a = [] →
      (∀ c o xs, xs.length = d → Loc c.symstack xs c.strings → comp a m c = some o → Flow G d (o.code.map .ln) ∧ slots d (o.code.map .ln) = d) →
      Flows G Non d (decls a) (marked (bare (comp a m))) := by
    intro a m G d hd h
    refine Flows.marked (fun c o xs e0 h0 hl e => ?_)
    unfold bare at e
    cases hx : comp a m c with
    | none => rw [hx] at e; cases e
    | some p =>
      rw [hx] at e
      cases e
      obtain ⟨h1, h2⟩ := h c p xs e0 hl hx
      refine ⟨h1, by rw [hd]; exact h2, fun _ _ h => h.elim, ?_⟩
      have : Tabs _ _ := comp_tabs a m c p (.fn xs) hx hl
      exact this
  induction a with
  | nil => exact fun m G d _ => lone rfl (fun c o xs _ _ h => by cases h; exact ⟨flow_one (by simp [Suits]), rfl⟩)
  | num t => exact fun m G d _ => lone rfl (fun c o xs _ _ h => by cases h; exact constant_fits t)
  | str s => exact fun m G d _ => lone rfl (fun c o xs _ _ h => by cases h; exact ⟨flows_pushs, rfl⟩)
  | bin o a b iha ihb => exact fun m G d t => ((both (iha _ _ _ t.1) (ihb _ _ _ t.2)).seq0 (flows_op (by cases o <;> decide))).marked
  | un o a iha => exact fun m G d t => ((iha _ _ _ t).seq0 (flows_op (by cases o <;> decide))).marked
  | lam ps b ih =>
    refine fun m G d _ => lone rfl (fun c o xs _ _ h => ?_)
    obtain ⟨u, v, h1, h2, rfl⟩ := seq_some (x := put [.ref 40 c.labels]) h
    cases h1
    obtain ⟨w, _, rfl⟩ := chunk_some h2
    exact ⟨flow_one (by simp [Suits]), rfl⟩
  | tnew => exact fun m G d _ => lone rfl (fun c o xs _ _ h => by cases h; exact ⟨flow_one (by simp [Suits]), rfl⟩)
  | tset t k v iht ihv =>
    exact fun m G d h => ((both (((iht _ _ _ h.1).seq0 (flows_op (by decide))).seq0 (flows_key k)) (ihv _ _ _ h.2)).seq0 (flows_op (by decide))).marked
  | id x =>
    refine fun m G d _ => lone rfl (fun c o xs hd hl h => ?_)
    cases h
    have hs := hl.sym x
    rw [hd] at hs
    cases m with
    | val => exact flow_load hs false
    | callee => exact flow_load hs true
    | lval =>
      simp only
      split
      · exact ⟨flows_pushs, rfl⟩
      · exact ⟨flow_nil _ _, rfl⟩
  | field r s ih =>
    intro m G d t
    refine (((ih _ _ _ t).seq0 (flows_str ?_ ?_)).seq0 (flows_ops flows_nil (flows_op (by decide)))).marked
    · intro i
      split
      · exact Flow.cons (by simp [Suits]) flows_pushs
      · exact flows_pushs
    · intro i
      split <;> rfl
  | index r e ihr ihe =>
    exact fun m G d t => ((both ((ihr _ _ _ t.1).seq0 (flows_ops (flows_op (by decide)) flows_nil)) (ihe _ _ _ t.2)).seq0
      (flows_ops flows_nil (flows_op (by decide)))).marked
  | call r as ihr ihs =>
    exact fun m G d t => ((both (pre0 (flows_ops (flows_op (by decide)) flows_nil) (ihr _ _ _ t.1)) (ihs _ _ _ t.2)).seq0
      (flows_put (Flow.cons (by simp [Suits]) (flow_one (by simp [Suits]))) rfl (fun _ _ h => h.elim))).marked
  | noArg => exact fun m G d _ => lone rfl (fun c o xs _ _ h => by cases h; exact ⟨flow_nil _ _, rfl⟩)
  | arg as a ih1 ih2 => exact fun m G d t => (both (ih1 _ _ _ t.1) (ih2 _ _ _ t.2)).marked
  | decl x =>
    intro m G d _
    refine Flows.marked (fun c o xs e0 h0 hl e => ?_)
    unfold bare at e
    cases hx : comp (.decl x) m c with
    | none => rw [hx] at e; cases e
    | some p =>
      rw [hx] at e
      cases e
      have ht : Tabs p.cs _ := comp_tabs (.decl x) m c p (.fn xs) hx hl
      simp only [comp] at hx
      have t1 : c.top.length = d := by rw [Loc.top hl, table_length, e0]
      split at hx
      · cases hx
      · rw [if_neg hl.length] at hx
        cases hx
        rw [t1]
        exact ⟨Flow.cons (by simp [Suits]) (flow_one (by simp [Suits, grow])), by simp [slots, grow, decls], fun _ _ h => h.elim, ht⟩
  | init x e ih =>
    intro m G d t
    refine Flows.marked (fun c o xs e0 h0 hl h => ?_)
    have t1 : c.top.length = d := by rw [Loc.top hl, table_length, e0]
    split at h
    · cases h
    · rename_i hloc
      rw [if_neg hl.length, t1] at h
      have hl1 : Loc (addLocal x c).symstack (xs ++ [x]) (addLocal x c).strings := tabbed_addLocal (sh := .fn xs) hl hl.length (by simpa using hloc)
      obtain ⟨u, v, h1, h2, rfl⟩ := seqR_some h
      obtain ⟨u1, u2, h3, h4, rfl⟩ := seqR_some h1
      cases h3
      cases h2
      obtain ⟨f1, f2, _, f4⟩ := ih .val G (d + 1) t (addLocal x c) u2 (xs ++ [x]) (by simp [e0]) (by omega) hl1 h4
      have fl : slots d [Rec.ln (.op 2), .ln (.num 42 d)] = d + 1 := by simp [slots, grow]
      refine ⟨((Flow.cons (by simp [Suits]) (flow_one (by simp [Suits, grow]))).append ?_).append (flow_one ?_), ?_, fun _ _ h => h.elim, ?_⟩
      · show Flow G (slots d [Rec.ln (.op 2), .ln (.num 42 d)]) _
        rw [fl]
        exact f1
      · show Suits _ _ _ (slots d ([Rec.ln (.op 2), .ln (.num 42 d)] ++ u2.code)) _
        rw [slots_append, fl, f2]
        simp [Suits]
        omega
      · show slots d (([Rec.ln (.op 2), .ln (.num 42 d)] ++ u2.code) ++ [Rec.ln (.num 42 d)]) = _
        rw [slots_append, slots_append, fl, f2]
        simp only [slots, List.foldl, grow, if_true, decls, List.length_cons]
        rw [if_neg (by omega)]
        omega
      · have f4 : Loc u2.cs.symstack (xs ++ [x] ++ decls e) u2.cs.strings := f4
        simpa [decls] using f4
  | assign r e ihr ihe =>
    intro m G d t
    refine Flows.marked (fun c o xs e0 h0 hl h => ?_)
    have hst : ∀ d', d ≤ d' → Flows G Non d' [] (bare (put (storeOp r c))) := by
      intro d' hd'
      unfold storeOp
      split
      · rename_i x
        have hs := hl.sym x
        split
        · exact flows_op (by decide)
        · rename_i hg
          rcases hs with hs | ⟨_, hs⟩
          · exact absurd hs hg
          · refine flows_put (flow_one ?_) ?_ (fun _ _ h => h.elim)
            · simp [Suits]; omega
            · simp only [List.map, slots, List.foldl, grow, if_true]
              rw [if_neg (by omega)]
      · exact flows_op (by decide)
    exact ((both (ihr _ _ _ t.1) (ihe _ _ _ t.2)).seq0 (hst _ (Nat.le_add_right _ _)) rfl) c o xs e0 h0 hl h
  | run r ih => exact fun m G d t => ((ih _ _ _ t).seq0 (flows_op (by decide))).marked
  | func f ps b ih =>
    intro m G d _
    refine Flows.marked (fun c o xs e0 h0 hl e => ?_)
    have hn : c.symstack.length > 1 := by
      obtain ⟨ts, b, e, _⟩ := hl.split
      rw [e]
      simp
    unfold bare at e
    simp only [comp] at e
    rw [if_pos hn] at e
    cases e
  | ifs c a ihc iha =>
    intro m G d t
    obtain ⟨t1, t2, ha⟩ := t
    refine (Flows.labels fun l => ?_).marked
    have h := (((ihc .val (fun k n => G k n ∨ (k = l ∧ n = d + (decls c).length)) d t1).seq0
      (flows_put (l := [.ref 45 l]) (flow_one (by simp [Suits])) rfl (fun _ _ h => h.elim)) rfl).seq (iha .val _ _ t2) rfl).seq
      (flows_put (l := [.lab l]) (L := fun k n => k = l ∧ n = d + (decls c).length) (flow_one trivial) rfl (fun k n hk => by
        rw [hk.1, hk.2]
        exact ⟨[], [], rfl, rfl⟩)) (by simp [ha])
    rw [List.append_nil] at h
    exact h.close (fun k n hk => hk.imp id (fun h => .inr h)) (fun _ _ h => h.elim)
  | ite c a b ihc iha ihb =>
    intro m G d t
    obtain ⟨t1, t2, t3, ha, hb⟩ := t
    refine (Flows.labels fun l => ?_).marked
    have h := (((((ihc .val (fun k n => G k n ∨ ((k = l ∨ k = l + 1) ∧ n = d + (decls c).length)) d t1).seq0
      (flows_put (l := [.ref 45 l]) (flow_one (by simp [Suits])) rfl (fun _ _ h => h.elim)) rfl).seq (iha .val _ _ t2) rfl).seq
      (flows_put (d := d + (decls c).length) (l := [.ref 44 (l + 1), .lab l]) (L := fun k n => k = l ∧ n = d + (decls c).length)
        (Flow.cons (by simp [Suits]) (flow_one trivial)) rfl (fun k n hk => by
        rw [hk.1, hk.2]
        exact ⟨[Rec.ln (.ref 44 (l + 1))], [], rfl, rfl⟩)) (by simp [ha])).seq (ihb .val _ _ t3) rfl).seq
      (flows_put (d := d + (decls c).length) (l := [.lab (l + 1)]) (L := fun k n => k = l + 1 ∧ n = d + (decls c).length) (flow_one trivial) rfl (fun k n hk => by
        rw [hk.1, hk.2]
        exact ⟨[], [], rfl, rfl⟩)) (by simp [ha, hb])
    rw [List.append_nil, List.append_nil] at h
    refine h.close (fun k n hk => hk.imp id ?_) (fun _ _ h => h.elim)
    rintro ⟨rfl | rfl, hn⟩
    · exact .inl (.inl (.inr ⟨rfl, hn⟩))
    · exact .inr ⟨rfl, hn⟩
  | while_ c a ihc iha =>
    intro m G d t
    obtain ⟨t1, t2, hc, ha⟩ := t
    refine (Flows.labels fun l => ?_).marked
    have h := ((((flows_put (G := fun k n => G k n ∨ ((k = l ∨ k = l + 1) ∧ n = d)) (d := d) (l := [.lab l]) (L := fun k n => k = l ∧ n = d) (flow_one trivial) rfl (fun k n hk => by
        rw [hk.1, hk.2]
        exact ⟨[], [], rfl, rfl⟩)).seq (ihc .val _ d t1)).seq0
      (flows_put (d := d) (l := [.ref 45 (l + 1)]) (flow_one (by simp [Suits])) rfl (fun _ _ h => h.elim)) (by simp [hc])).seq (iha .val _ d t2) (by simp [hc])).seq
      (flows_put (d := d) (l := [.ref 44 l, .lab (l + 1)]) (L := fun k n => k = l + 1 ∧ n = d)
        (Flow.cons (by simp [Suits]) (flow_one trivial)) rfl (fun k n hk => by
        rw [hk.1, hk.2]
        exact ⟨[Rec.ln (.ref 44 l)], [], rfl, rfl⟩)) (by simp [ha, hc])
    rw [List.append_nil, List.nil_append] at h
    refine h.close (fun k n hk => hk.imp id ?_) (fun _ _ h => h.elim)
    rintro ⟨rfl | rfl, hn⟩
    · exact .inl (.inl (.inl ⟨rfl, hn⟩))
    · exact .inr ⟨rfl, hn⟩
  | for_ i c u a ihi ihc ihu iha =>
    intro m G d t
    obtain ⟨t1, t2, t3, t4, hc, hu, ha⟩ := t
    refine (Flows.labels fun l => ?_).marked
    generalize hD : d + (decls i).length = D
    have h := (((((((ihi .val (fun k n => G k n ∨ ((k = l ∨ k = l + 1 ∨ k = l + 2 ∨ k = l + 3) ∧ n = D)) d t1).seq
      (flows_put (d := D) (l := [.lab l]) (L := fun k n => k = l ∧ n = D) (flow_one trivial) rfl (fun k n hk => by
        rw [hk.1, hk.2]
        exact ⟨[], [], rfl, rfl⟩)) hD.symm).seq (ihc .val _ D t2) (by simp [hD])).seq
      (flows_put (d := D) (l := [.ref 46 (l + 2), .ref 44 (l + 3), .lab (l + 1)]) (L := fun k n => k = l + 1 ∧ n = D)
        (Flow.cons (by simp [Suits]) (Flow.cons (by simp [Suits, grow]) (flow_one trivial))) rfl (fun k n hk => by
        rw [hk.1, hk.2]
        exact ⟨[Rec.ln (.ref 46 (l + 2)), Rec.ln (.ref 44 (l + 3))], [], rfl, rfl⟩)) (by simp [hc, hD])).seq (ihu .val _ D t3) (by simp [hc, hD])).seq
      (flows_put (d := D) (l := [.ref 44 l, .lab (l + 2)]) (L := fun k n => k = l + 2 ∧ n = D)
        (Flow.cons (by simp [Suits]) (flow_one trivial)) rfl (fun k n hk => by
        rw [hk.1, hk.2]
        exact ⟨[Rec.ln (.ref 44 l)], [], rfl, rfl⟩)) (by simp [hc, hu, hD])).seq (iha .val _ D t4) (by simp [hc, hu, hD])).seq
      (flows_put (d := D) (l := [.ref 44 (l + 1), .lab (l + 3)]) (L := fun k n => k = l + 3 ∧ n = D)
        (Flow.cons (by simp [Suits]) (flow_one trivial)) rfl (fun k n hk => by
        rw [hk.1, hk.2]
        exact ⟨[Rec.ln (.ref 44 (l + 1))], [], rfl, rfl⟩)) (by simp [ha, hc, hu, hD])
    simp only [List.append_nil] at h
    refine h.close (fun k n hk => hk.imp id ?_) (fun _ _ h => h.elim)
    rintro ⟨rfl | rfl | rfl | rfl, hn⟩ <;> simp [hn]
  | ret0 => exact fun m G d _ => lone rfl (fun c o xs _ _ h => by cases h; exact ⟨flow_one (by simp [Suits]), rfl⟩)
  | ret e ih => exact fun m G d t => ((ih _ _ _ t).seq0 (flows_op (by decide))).marked
  | block b ih =>
    intro m G d t
    refine Flows.marked (fun c o xs e0 h0 hl h => ?_)
    rw [if_neg hl.length] at h
    have hp := (compR_plain b .val).body { c with symstack := c.symstack.headD [] :: c.symstack }
    rw [h, Option.map_some] at hp
    have ht : Tabs o.plain.cs _ := comp_tabs (.block b) m c o.plain (.fn xs) (by rw [comp]; show bodyC _ { c with symstack := (if _ then _ else _) :: _ } = _; rw [if_neg hl.length]; exact hp.symm) hl
    obtain ⟨f1, f2⟩ := flow_body (c := { c with symstack := c.symstack.headD [] :: c.symstack }) (ih .val G d t) e0 h0 (loc_copy hl) h
    exact ⟨f1, f2, fun _ _ h => h.elim, ht⟩
  | skip => exact fun m G d _ => lone rfl (fun c o xs _ _ h => by cases h; exact ⟨flow_nil _ _, rfl⟩)
  | seq s l ih1 ih2 => exact fun m G d t => (both (ih1 _ _ _ t.1) (ih2 _ _ _ t.2)).marked

end Buzz.Comp
