import Verif.CompFuns

/-
Which phrases the compiler accepts: no variable is declared twice in the same function, and functions are defined outside of functions
and blocks only.
-/
namespace Buzz.Lang

open Buzz.Msg

/-- The phrase declares only new variables, and defines functions only outside of functions and blocks. -/
def Legal : Shape → Ast → Prop
  | sh, .bin _ a b => Legal sh a ∧ Legal (sh.ext (decls a)) b
  | sh, .un _ a => Legal sh a
  | sh, .lam ps b => Legal (.fn (sh.params ps)) b
  | sh, .tset t _ e => Legal sh t ∧ Legal (sh.ext (decls t)) e
  | sh, .field r _ => Legal sh r
  | sh, .index r e => Legal sh r ∧ Legal (sh.ext (decls r)) e
  | sh, .call f as => Legal sh f ∧ Legal (sh.ext (decls f)) as
  | sh, .arg as a => Legal sh as ∧ Legal (sh.ext (decls as)) a
  | sh, .decl x => x ∉ sh.vars
  | sh, .init x e => x ∉ sh.vars ∧ Legal (sh.ext [x]) e
  | sh, .assign r e => Legal sh r ∧ Legal (sh.ext (decls r)) e
  | sh, .run r => Legal sh r
  | sh, .func _ ps b => sh = .top ∧ Legal (.fn (sh.params ps)) b
  | sh, .ifs c a => Legal sh c ∧ Legal (sh.ext (decls c)) a
  | sh, .ite c a b => Legal sh c ∧ Legal (sh.ext (decls c)) a ∧ Legal (sh.ext (decls c ++ decls a)) b
  | sh, .while_ c a => Legal sh c ∧ Legal (sh.ext (decls c)) a
  | sh, .for_ i c u a => Legal sh i ∧ Legal (sh.ext (decls i)) c ∧ Legal (sh.ext (decls i ++ decls c)) u ∧ Legal (sh.ext (decls i ++ decls c ++ decls u)) a
  | sh, .ret e => Legal sh e
  | sh, .block b => Legal sh.block b
  | sh, .seq s l => Legal sh s ∧ Legal (sh.ext (decls s)) l
  | _, _ => True

end Buzz.Lang

namespace Buzz.Comp

open Buzz.Msg Buzz.Lex Buzz.VM Buzz.Parser Buzz.Lang

/-- Compilation that declares `vs` and succeeds in the scopes where `L` holds. -/
def Takes (vs : List Bytes) (L : Shape → Prop) (x : C) : Prop := Tabbed vs x ∧ ∀ c sh, Tabs c sh → ((∃ o, x c = some o) ↔ L sh)

theorem seq_isSome {x y : C} {c : CS} : (∃ o, (x ⊹ y) c = some o) ↔ ∃ a b, x c = some a ∧ y a.cs = some b := by
  constructor
  · rintro ⟨o, h⟩
    obtain ⟨a, b, h1, h2, _⟩ := seq_some h
    exact ⟨a, b, h1, h2⟩
  · rintro ⟨a, b, h1, h2⟩
    unfold seqO
    rw [h1]
    simp only [h2]
    exact ⟨_, rfl⟩

theorem Takes.seq {vs ws : List Bytes} {L M : Shape → Prop} {x y : C} (hx : Takes vs L x) (hy : Takes ws M y) : Takes (vs ++ ws) (fun sh => L sh ∧ M (sh.ext vs)) (x ⊹ y) := by
  refine ⟨hx.1.seq hy.1, fun c sh ht => ?_⟩
  rw [seq_isSome]
  constructor
  · rintro ⟨a, b, h1, h2⟩
    exact ⟨(hx.2 c sh ht).mp ⟨a, h1⟩, (hy.2 a.cs _ (hx.1 c a sh h1 ht)).mp ⟨b, h2⟩⟩
  · rintro ⟨h1, h2⟩
    obtain ⟨a, h1⟩ := (hx.2 c sh ht).mpr h1
    obtain ⟨b, h2⟩ := (hy.2 a.cs _ (hx.1 c a sh h1 ht)).mpr h2
    exact ⟨a, b, h1, h2⟩

theorem Takes.congr {vs : List Bytes} {L M : Shape → Prop} {x : C} (hx : Takes vs L x) (h : ∀ sh, L sh ↔ M sh) : Takes vs M x :=
  ⟨hx.1, fun c sh ht => (hx.2 c sh ht).trans (h sh)⟩

theorem takes_put (l : List Ln) : Takes [] (fun _ => True) (put l) := ⟨(stacks_put l).tabbed, fun c _ _ => ⟨fun _ => trivial, fun _ => ⟨_, rfl⟩⟩⟩

theorem takes_str (s : Bytes) (k : Nat → List Ln) : Takes [] (fun _ => True) (withStr s k) := ⟨(stacks_str s k).tabbed, fun c _ _ => ⟨fun _ => trivial, fun _ => ⟨_, rfl⟩⟩⟩

theorem takes_key (k : Key) : Takes [] (fun _ => True) (keyC k) := by
  cases k with
  | name s => exact takes_str s (fun i => [.num 37 i])
  | num t => exact takes_put _

theorem Takes.seq0 {vs : List Bytes} {L : Shape → Prop} {x y : C} (hx : Takes vs L x) (hy : Takes [] (fun _ => True) y) : Takes vs L (x ⊹ y) := by
  have := hx.seq hy
  rw [List.append_nil] at this
  exact this.congr fun sh => (by simp)

theorem Takes.seq1 {vs : List Bytes} {L : Shape → Prop} {x y : C} (hx : Takes [] (fun _ => True) x) (hy : Takes vs L y) : Takes vs L (x ⊹ y) := by
  refine (hx.seq hy).congr fun sh => ?_
  rw [true_and, Shape.ext_nil]

theorem Takes.labels {vs : List Bytes} {L : Shape → Prop} {n : Nat} {k : Nat → C} (h : ∀ l, Takes vs L (k l)) : Takes vs L (withLabels n k) :=
  ⟨Tabbed.labels fun l => (h l).1, fun c sh ht => (h c.labels).2 { c with labels := c.labels + n } sh (by cases sh <;> exact ht)⟩

theorem body_isSome {x : C} {c : CS} : (∃ o, bodyC x c = some o) ↔ ∃ o, x c = some o := by
  unfold bodyC
  cases x c with
  | none => simp
  | some o => simp

theorem chunk_isSome {sym : Option (Bytes × Nat)} {f : CS → CS} {x : C} {c : CS} : (∃ o, chunkC sym f x c = some o) ↔ ∃ o, x (f { c with labels := c.labels + 1 }) = some o := by
  rw [← body_isSome (x := x)]
  unfold chunkC
  cases h : bodyC x (f { c with labels := c.labels + 1 }) with
  | none => exact ⟨fun ⟨o, e⟩ => (by cases e), fun ⟨o, e⟩ => (by cases e)⟩
  | some o => exact ⟨fun _ => ⟨_, rfl⟩, fun _ => ⟨_, rfl⟩⟩

theorem isLocal_iff {c : CS} {sh : Shape} (ht : Tabs c sh) (x : Bytes) : isLocal x c = false ↔ x ∉ sh.vars := by
  cases sh with
  | top =>
    refine ⟨fun _ h => (by cases h), fun _ => ?_⟩
    obtain ⟨b, h1, h2⟩ := ht
    unfold isLocal
    rw [h1, lookup_base]
    cases hg : FMap.get b x with
    | none => rfl
    | some s =>
      have := (h2 _ (FMap.mem_of_get hg)).1
      simp only at this
      simp [this]
  | inner xs => exact ⟨fun h => isLocal_in (l := c.labels) ht h, fun h => isLocal_out (l := c.labels) ht h⟩
  | fn xs => exact ⟨fun h => isLocal_in (l := c.labels) ht h, fun h => isLocal_out (l := c.labels) ht h⟩

theorem shape_len {c : CS} {sh : Shape} (ht : Tabs c sh) : c.symstack.length > 1 ↔ sh ≠ .top := by
  cases sh with
  | top => obtain ⟨b, h1, _⟩ := ht; rw [h1]; simp
  | inner xs => obtain ⟨⟨ts, b, h1, _⟩, _⟩ := ht; rw [h1]; simp
  | fn xs => obtain ⟨⟨ts, b, h1, _⟩, _⟩ := ht; rw [h1]; simp

/-- **The compiler accepts exactly the phrases that declare new variables only and define functions outside of functions and blocks only.** -/
theorem comp_takes (a : Ast) : ∀ m, Takes (decls a) (fun sh => Legal sh a) (comp a m) := by
  induction a with
  | nil => exact fun _ => takes_put _
  | num t => exact fun _ => takes_put _
  | str s => exact fun _ => takes_str _ _
  | bin o a b iha ihb => exact fun _ => ((iha _).seq (ihb _)).seq0 (takes_put _)
  | un o a iha => exact fun _ => (iha _).seq0 (takes_put _)
  | lam ps b ih =>
    intro m
    refine ⟨comp_tabs _ _, fun c sh ht => ?_⟩
    show (∃ o, (put [.ref 40 c.labels] ⊹ chunkC none (fun cs => ps.foldl addParam (scope cs)) (comp b .val)) c = some o) ↔ _
    rw [seq_isSome]
    have := (ih .val).2 _ _ (tabs_params ht ps)
    refine Iff.trans ?_ this
    rw [← chunk_isSome (sym := none) (f := fun cs => ps.foldl addParam (scope cs))]
    constructor
    · rintro ⟨a, b, h1, h2⟩
      cases h1
      exact ⟨b, h2⟩
    · rintro ⟨b, h⟩
      exact ⟨_, b, rfl, h⟩
  | tnew => exact fun _ => takes_put _
  | tset t k v iht ihv => exact fun _ => ((((iht _).seq0 (takes_put _)).seq0 (takes_key k)).seq (ihv _)).seq0 (takes_put _)
  | id x => exact fun _ => ⟨comp_tabs _ _, fun c sh ht => ⟨fun _ => trivial, fun _ => ⟨_, rfl⟩⟩⟩
  | field r s ih => exact fun _ => ((ih _).seq0 (takes_str _ _)).seq0 (takes_put _)
  | index r e ihr ihe => exact fun _ => (((ihr _).seq0 (takes_put _)).seq (ihe _)).seq0 (takes_put _)
  | call r as ihr ihs => exact fun _ => (((takes_put _).seq1 (ihr _)).seq (ihs _)).seq0 (takes_put _)
  | noArg => exact fun _ => takes_put _
  | arg as a ih1 ih2 => exact fun _ => (ih1 _).seq (ih2 _)
  | decl x =>
    intro m
    refine ⟨comp_tabs _ _, fun c sh ht => ?_⟩
    show _ ↔ x ∉ sh.vars
    rw [← isLocal_iff ht]
    simp only [comp]
    cases isLocal x c with
    | true => simp
    | false =>
      refine ⟨fun _ => rfl, fun _ => ?_⟩
      split
      · rename_i h; cases h
      · split <;> exact ⟨_, rfl⟩
  | init x e ih =>
    intro m
    refine ⟨comp_tabs _ _, fun c sh ht => ?_⟩
    show _ ↔ x ∉ sh.vars ∧ Legal (sh.ext [x]) e
    rw [← isLocal_iff ht]
    simp only [comp]
    cases hl : isLocal x c with
    | true => simp
    | false =>
      simp only [true_and]
      by_cases h1 : c.symstack.length = 1
      · obtain rfl := tabs_top ht h1
        simp only [if_pos h1]
        have := (((takes_put [.num 37 (stringAdd c.strings x).2]).seq1 (ih .val)).seq0 (takes_put [.op 29])).2 _ .top (tabs_addGlobal (x := x) ht)
        show _ ↔ Legal .top e
        simpa using this
      · simp only [if_neg h1]
        have := (((takes_put [.op 2, .num 42 c.top.length]).seq1 (ih .val)).seq0 (takes_put [.num 42 c.top.length])).2 _ _ (tabbed_addLocal (x := x) ht h1 hl)
        simpa using this
  | assign r e ihr ihe =>
    intro m
    refine ⟨comp_tabs _ _, fun c sh ht => ?_⟩
    exact (((ihr _).seq (ihe _)).seq0 (takes_put _)).2 c sh ht
  | run r ih => exact fun _ => (ih _).seq0 (takes_put _)
  | func f ps b ih =>
    intro m
    refine ⟨comp_tabs _ _, fun c sh ht => ?_⟩
    show _ ↔ sh = .top ∧ Legal (.fn (sh.params ps)) b
    have hl := shape_len ht
    simp only [comp]
    by_cases h1 : c.symstack.length > 1
    · simp only [if_pos h1]
      have := hl.mp h1
      simp [this]
    · simp only [if_neg h1]
      rw [chunk_isSome]
      have h2 : sh = .top := by
        by_contra h
        exact h1 (hl.mpr h)
      rw [(ih .val).2 _ _ (tabs_params (tabs_known (x := f) ht) ps)]
      simp [h2]
  | ifs c a ihc iha => exact fun _ => Takes.labels fun _ => (((ihc _).seq0 (takes_put _)).seq (iha _)).seq0 (takes_put _)
  | ite c a b ihc iha ihb =>
    exact fun _ => Takes.labels fun _ => ((((((ihc _).seq0 (takes_put _)).seq (iha _)).seq0 (takes_put _)).seq (ihb _)).seq0 (takes_put _)).congr fun sh => and_assoc
  | while_ c a ihc iha => exact fun _ => Takes.labels fun _ => ((((takes_put _).seq1 (ihc _)).seq0 (takes_put _)).seq (iha _)).seq0 (takes_put _)
  | for_ i c u a ihi ihc ihu iha =>
    exact fun _ => Takes.labels fun _ => ((((((((ihi _).seq0 (takes_put _)).seq (ihc _)).seq0 (takes_put _)).seq (ihu _)).seq0 (takes_put _)).seq (iha _)).seq0 (takes_put _)).congr
      fun sh => by simp only [and_assoc]; exact Iff.rfl
  | ret0 => exact fun _ => takes_put _
  | ret e ih => exact fun _ => (ih _).seq0 (takes_put _)
  | block b ih =>
    intro m
    refine ⟨comp_tabs _ _, fun c sh ht => ?_⟩
    show (∃ o, bodyC (comp b .val) { c with symstack := (if c.symstack.length = 1 then [] else c.symstack.headD []) :: c.symstack } = some o) ↔ Legal sh.block b
    rw [body_isSome]
    exact (ih .val).2 _ _ (tabs_block ht)
  | skip => exact fun _ => takes_put _
  | seq s l ih1 ih2 => exact fun _ => (ih1 _).seq (ih2 _)

end Buzz.Comp
