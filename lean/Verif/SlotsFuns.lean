import Verif.Slots
import Verif.CompStrings

/-
The functions of a program in the compiler with records.
-/
namespace Buzz.Comp

open Buzz.Msg Buzz.Lex Buzz.VM Buzz.Parser Buzz.Lang

/-- The chunk is a function with parameters `ps` and body `b`, compiled in the scope of the compiler `c`. -/
def FnChunk (e : EC) : Prop := ∃ (c : CS) (sh : Shape) (ps : List Bytes) (b : Ast) (g : ROut),
  Tabs c sh ∧ tidy b ∧ bodyR (compR b .val) (ps.foldl addParam (scope c)) = some g ∧ e.code = rows g.code ++ [.op 5]

/-- A compilation that declares `vs` and makes only such chunks. -/
def Funs (vs : List Bytes) (x : C) : Prop := Tabbed vs x ∧ ∀ c o sh, Tabs c sh → x c = some o → ∀ e ∈ o.news, FnChunk e

theorem Funs.seq {vs ws : List Bytes} {x y : C} (hx : Funs vs x) (hy : Funs ws y) : Funs (vs ++ ws) (x ⊹ y) := by
  refine ⟨hx.1.seq hy.1, fun c o sh ht h e he => ?_⟩
  obtain ⟨a, b, h1, h2, rfl⟩ := seq_some h
  rcases List.mem_append.mp he with he | he
  · exact hx.2 c a sh ht h1 e he
  · exact hy.2 a.cs b _ (hx.1 c a sh h1 ht) h2 e he

theorem funs_put (l : List Ln) : Funs [] (put l) := ⟨(stacks_put l).tabbed, fun c o sh _ h e he => by cases h; cases he⟩

theorem funs_str (s : Bytes) (k : Nat → List Ln) : Funs [] (withStr s k) := ⟨(stacks_str s k).tabbed, fun c o sh _ h e he => by cases h; cases he⟩

theorem funs_key (k : Key) : Funs [] (keyC k) := by
  cases k with
  | name s => exact funs_str s (fun i => [.num 37 i])
  | num t => exact funs_put _

theorem Funs.seq0 {vs : List Bytes} {x y : C} (hx : Funs vs x) (hy : Funs [] y) : Funs vs (x ⊹ y) := by
  have := hx.seq hy
  rwa [List.append_nil] at this

theorem Funs.seq1 {vs : List Bytes} {x y : C} (hx : Funs [] x) (hy : Funs vs y) : Funs vs (x ⊹ y) := hx.seq hy

theorem Funs.labels {vs : List Bytes} {n : Nat} {k : Nat → C} (h : ∀ l, Funs vs (k l)) : Funs vs (withLabels n k) :=
  ⟨Tabbed.labels fun l => (h l).1, fun c o sh ht e => (h c.labels).2 { c with labels := c.labels + n } o sh (by cases sh <;> exact ht) e⟩

theorem funs_body {vs : List Bytes} {x : C} (hx : Funs vs x) {c : CS} {o : Out} {sh : Shape} (ht : Tabs c sh) (h : bodyC x c = some o) : ∀ e ∈ o.news, FnChunk e := by
  obtain ⟨b, h1, rfl⟩ := body_some h
  exact hx.2 c b sh ht h1

theorem funs_chunk {sym : Option (Bytes × Nat)} {ps : List Bytes} {b : Ast} (hb : tidy b) {vs : List Bytes} (hx : Funs vs (comp b .val)) {c : CS} {o : Out} {sh : Shape}
    (ht : Tabs c sh) (h : chunkC sym (fun cs => ps.foldl addParam (scope cs)) (comp b .val) c = some o) : ∀ e ∈ o.news, FnChunk e := by
  obtain ⟨u, h1, rfl⟩ := chunk_some h
  intro e he
  rcases List.mem_cons.mp he with rfl | he
  · have er := (compR_plain b .val).body (ps.foldl addParam (scope { c with labels := c.labels + 1 }))
    rw [h1] at er
    cases hg : bodyR (compR b .val) (ps.foldl addParam (scope { c with labels := c.labels + 1 })) with
    | none => rw [hg] at er; cases er
    | some g =>
      rw [hg] at er
      cases er
      exact ⟨_, sh, ps, b, g, (by cases sh <;> exact ht), hb, hg, rfl⟩
  · exact funs_body hx (tabs_params ht ps) h1 e he

/-- **All chunks a phrase is compiled to are functions compiled in the scope around them.** -/
theorem comp_funs (a : Ast) : ∀ m, tidy a → Funs (decls a) (comp a m) := by
  induction a with
  | nil => exact fun _ _ => funs_put _
  | num t => exact fun _ _ => funs_put _
  | str s => exact fun _ _ => funs_str _ _
  | bin o a b iha ihb => exact fun _ h => ((iha _ h.1).seq (ihb _ h.2)).seq0 (funs_put _)
  | un o a iha => exact fun _ h => (iha _ h).seq0 (funs_put _)
  | lam ps b ih =>
    intro m hb
    refine ⟨comp_tabs _ _, fun c o sh ht h => ?_⟩
    have h : (put [.ref 40 c.labels] ⊹ chunkC none (fun cs => ps.foldl addParam (scope cs)) (comp b .val)) c = some o := h
    obtain ⟨u, v, h1, h2, rfl⟩ := seq_some h
    cases h1
    exact funs_chunk (b := b) hb (ih .val hb) (sh := sh) (o := v) (by cases sh <;> exact ht) h2
  | tnew => exact fun _ _ => funs_put _
  | tset t k v iht ihv => exact fun _ h => ((((iht _ h.1).seq0 (funs_put _)).seq0 (funs_key k)).seq (ihv _ h.2)).seq0 (funs_put _)
  | id x =>
    intro m _
    refine ⟨comp_tabs _ _, fun c o sh ht h e he => ?_⟩
    cases h
    cases he
  | field r s ih => exact fun _ h => ((ih _ h).seq0 (funs_str _ _)).seq0 (funs_put _)
  | index r e ihr ihe => exact fun _ h => (((ihr _ h.1).seq0 (funs_put _)).seq (ihe _ h.2)).seq0 (funs_put _)
  | call r as ihr ihs => exact fun _ h => (((funs_put _).seq1 (ihr _ h.1)).seq (ihs _ h.2)).seq0 (funs_put _)
  | noArg => exact fun _ _ => funs_put _
  | arg as a ih1 ih2 => exact fun _ h => (ih1 _ h.1).seq (ih2 _ h.2)
  | decl x =>
    intro m _
    refine ⟨comp_tabs _ _, fun c o sh ht h e he => ?_⟩
    simp only [comp] at h
    split at h
    · cases h
    · split at h
      · cases h; cases he
      · cases h; cases he
  | init x e ih =>
    intro m he
    refine ⟨comp_tabs _ _, fun c o sh ht h => ?_⟩
    simp only [comp] at h
    split at h
    · cases h
    · rename_i hloc
      split at h
      · exact (((funs_put _).seq1 (ih _ he)).seq0 (funs_put _)).2 _ _ sh (tabs_addGlobal ht) h
      · rename_i hl
        exact (((funs_put _).seq1 (ih _ he)).seq0 (funs_put _)).2 _ _ _ (tabbed_addLocal ht hl (by simpa using hloc)) h
  | assign r e ihr ihe =>
    intro m ha
    refine ⟨comp_tabs _ _, fun c o sh ht h => ?_⟩
    exact (((ihr _ ha.1).seq (ihe _ ha.2)).seq0 (funs_put _)).2 c o sh ht h
  | run r ih => exact fun _ h => (ih _ h).seq0 (funs_put _)
  | func f ps b ih =>
    intro m hb
    refine ⟨comp_tabs _ _, fun c o sh ht h => ?_⟩
    simp only [comp] at h
    split at h
    · cases h
    · exact funs_chunk (b := b) hb (ih .val hb) (tabs_known (x := f) ht) h
  | ifs c a ihc iha => exact fun _ h => Funs.labels fun _ => (((ihc _ h.1).seq0 (funs_put _)).seq (iha _ h.2.1)).seq0 (funs_put _)
  | ite c a b ihc iha ihb =>
    exact fun _ h => Funs.labels fun _ => (((((ihc _ h.1).seq0 (funs_put _)).seq (iha _ h.2.1)).seq0 (funs_put _)).seq (ihb _ h.2.2.1)).seq0 (funs_put _)
  | while_ c a ihc iha => exact fun _ h => Funs.labels fun _ => ((((funs_put _).seq1 (ihc _ h.1)).seq0 (funs_put _)).seq (iha _ h.2.1)).seq0 (funs_put _)
  | for_ i c u a ihi ihc ihu iha =>
    exact fun _ h => Funs.labels fun _ =>
      (((((((ihi _ h.1).seq0 (funs_put _)).seq (ihc _ h.2.1)).seq0 (funs_put _)).seq (ihu _ h.2.2.1)).seq0 (funs_put _)).seq (iha _ h.2.2.2.1)).seq0 (funs_put _)
  | ret0 => exact fun _ _ => funs_put _
  | ret e ih => exact fun _ h => (ih _ h).seq0 (funs_put _)
  | block b ih =>
    intro m hb
    refine ⟨comp_tabs _ _, fun c o sh ht h => ?_⟩
    exact funs_body (ih .val hb) (tabs_block ht) h
  | skip => exact fun _ _ => funs_put _
  | seq s l ih1 ih2 => exact fun _ h => (ih1 _ h.1).seq (ih2 _ h.2)

end Buzz.Comp
