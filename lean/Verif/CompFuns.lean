import Verif.CompStrings

/-
The chunks that compilation makes: how they end, and which of them belong to the functions that a program defines.
-/
namespace Buzz.Lang

open Buzz.Msg Buzz.Lex Buzz.VM

/-- All function definitions in a phrase that are outside of functions and blocks. -/
def tops : Ast → List (Bytes × List Bytes × Ast)
  | .func f ps b => [(f, ps, b)]
  | .bin _ a b => tops a ++ tops b
  | .un _ a => tops a
  | .tset t _ e => tops t ++ tops e
  | .field r _ => tops r
  | .index r e => tops r ++ tops e
  | .call f as => tops f ++ tops as
  | .arg as a => tops as ++ tops a
  | .init _ e => tops e
  | .assign r e => tops r ++ tops e
  | .run r => tops r
  | .ifs c a => tops c ++ tops a
  | .ite c a b => tops c ++ tops a ++ tops b
  | .while_ c a => tops c ++ tops a
  | .for_ i c u a => tops i ++ tops c ++ tops u ++ tops a
  | .ret e => tops e
  | .seq s l => tops s ++ tops l
  | _ => []

/-- Statements and lists of statements. -/
def Cat.stats? : Cat → Bool
  | .stat | .sub | .stats | .blk => true
  | _ => false

/-- In a phrase of the grammar, functions are defined by statements only. -/
theorem syn_tops {g : Cat} {ts : List T2} {a : Ast} (h : Syn g ts a) : functions a = tops a ∧ (g.stats? = false → tops a = []) := by
  induction h with
  | _ => simp_all [tops, functions, Cat.stats?]

end Buzz.Lang

namespace Buzz.Comp

open Buzz.Msg Buzz.Lex Buzz.VM Buzz.Parser Buzz.Lang

/-- The chunk `e`, one of `ns`, is that of the function definition `d`. -/
def DefAt (ns : List EC) (strs : List (Bytes × Nat)) (e : EC) (d : Bytes × List Bytes × Ast) : Prop :=
  ∃ c o g, e.sym = some (d.1, g) ∧ ((selfName :: d.2.1).Nodup → Loc c.symstack (selfName :: d.2.1) c.strings) ∧ bodyC (comp d.2.2 .val) c = some o ∧
    e.code = o.code ++ [.op 5] ∧ Sub o.cs.strings strs ∧ ∀ x ∈ o.news, x ∈ ns

theorem DefAt.mono {ns ns' : List EC} {strs strs' : List (Bytes × Nat)} {e : EC} {d : Bytes × List Bytes × Ast} (h : DefAt ns strs e d) (hn : ∀ x ∈ ns, x ∈ ns')
    (hs : Sub strs strs') : DefAt ns' strs' e d := by
  obtain ⟨c, o, g, h1, h2, h3, h4, h5, h6⟩ := h
  exact ⟨c, o, g, h1, h2, h3, h4, h5.trans hs, fun x hx => hn x (h6 x hx)⟩

/-- The chunks with names. -/
def named (ns : List EC) : List EC := ns.filter (fun e => e.sym.isSome)

/-- Chunks made by a piece of compilation: they end with a return, and those with names belong to the definitions `ds`. -/
structure Made (ds : List (Bytes × List Bytes × Ast)) (o : Out) : Prop where
  ends : ∀ e ∈ o.news, ∃ X, e.code = X ++ [.op 5]
  defs : List.Forall₂ (DefAt o.news o.cs.strings) (named o.news) ds

theorem made_nil {o : Out} (h : o.news = []) : Made [] o := by
  refine ⟨fun e he => ?_, ?_⟩
  · rw [h] at he; cases he
  · rw [h]; exact .nil

/-- The definitions, if outside of functions and blocks. -/
def outer {α : Type} : Shape → List α → List α
  | .top, ds => ds
  | _, _ => []

@[simp] theorem outer_nil {α : Type} (sh : Shape) : outer sh ([] : List α) = [] := by cases sh <;> rfl

theorem outer_append {α : Type} (sh : Shape) (a b : List α) : outer sh (a ++ b) = outer sh a ++ outer sh b := by cases sh <;> rfl

@[simp] theorem outer_ext {α : Type} (sh : Shape) (vs : List Bytes) (a : List α) : outer (sh.ext vs) a = outer sh a := by cases sh <;> rfl

/-- Compilation that declares `vs` and defines `ds`. -/
def Makes (vs : List Bytes) (ds : List (Bytes × List Bytes × Ast)) (x : C) : Prop :=
  Tabbed vs x ∧ Grows x ∧ ∀ c o sh, Tabs c sh → x c = some o → Made (outer sh ds) o

theorem Made.append {ds es : List (Bytes × List Bytes × Ast)} {a b : Out} {cs : CS} (ha : Made ds a) (hb : Made es b) (hs : Sub a.cs.strings cs.strings) (he : b.cs.strings = cs.strings)
    {code : List Ln} : Made (ds ++ es) ⟨code, a.news ++ b.news, cs⟩ := by
  refine ⟨fun e he => (List.mem_append.mp he).elim (ha.ends e) (hb.ends e), ?_⟩
  unfold named
  rw [List.filter_append]
  refine List.rel_append (ha.defs.imp fun e d h => h.mono (fun x hx => List.mem_append_left _ hx) hs)
    (hb.defs.imp fun e d h => h.mono (fun x hx => List.mem_append_right _ hx) (by rw [he]; exact Sub.refl _))

theorem Makes.seq {vs ws : List Bytes} {ds es : List (Bytes × List Bytes × Ast)} {x y : C} (hx : Makes vs ds x) (hy : Makes ws es y) : Makes (vs ++ ws) (ds ++ es) (x ⊹ y) := by
  refine ⟨hx.1.seq hy.1, hx.2.1.seq hy.2.1, fun c o sh ht h => ?_⟩
  obtain ⟨a, b, h1, h2, rfl⟩ := seq_some h
  have ha := hx.2.2 c a sh ht h1
  have hb := hy.2.2 a.cs b _ (hx.1 c a sh h1 ht) h2
  rw [outer_ext] at hb
  rw [outer_append]
  exact ha.append hb (cs := b.cs) (code := a.code ++ b.code) (hy.2.1 _ _ h2) rfl

theorem makes_put (l : List Ln) : Makes [] [] (put l) :=
  ⟨(stacks_put l).tabbed, grows_put l, fun c o sh _ h => by cases h; rw [outer_nil]; exact made_nil rfl⟩

theorem makes_str (s : Bytes) (k : Nat → List Ln) : Makes [] [] (withStr s k) :=
  ⟨(stacks_str s k).tabbed, grows_str s k, fun c o sh _ h => by cases h; rw [outer_nil]; exact made_nil rfl⟩

theorem makes_key (k : Key) : Makes [] [] (keyC k) := by
  cases k with
  | name s => exact makes_str s (fun i => [.num 37 i])
  | num t => exact makes_put _

theorem Makes.seq0 {vs : List Bytes} {ds : List (Bytes × List Bytes × Ast)} {x y : C} (hx : Makes vs ds x) (hy : Makes [] [] y) : Makes vs ds (x ⊹ y) := by
  have := hx.seq hy
  rwa [List.append_nil, List.append_nil] at this

theorem Makes.seq1 {vs : List Bytes} {ds : List (Bytes × List Bytes × Ast)} {x y : C} (hx : Makes [] [] x) (hy : Makes vs ds y) : Makes vs ds (x ⊹ y) := hx.seq hy

theorem Makes.labels {vs : List Bytes} {ds : List (Bytes × List Bytes × Ast)} {n : Nat} {k : Nat → C} (h : ∀ l, Makes vs ds (k l)) : Makes vs ds (withLabels n k) :=
  ⟨Tabbed.labels fun l => (h l).1, Grows.labels fun l => (h l).2.1,
    fun c o sh ht e => (h c.labels).2.2 { c with labels := c.labels + n } o sh (by cases sh <;> exact ht) e⟩

theorem made_body {vs : List Bytes} {ds : List (Bytes × List Bytes × Ast)} {x : C} (hx : Makes vs ds x) {c : CS} {o : Out} {sh : Shape} (ht : Tabs c sh) (hn : outer sh ds = [])
    (h : bodyC x c = some o) : Made [] o := by
  obtain ⟨b, h1, rfl⟩ := body_some h
  have := hx.2.2 c b sh ht h1
  rw [hn] at this
  exact ⟨this.ends, this.defs⟩

theorem made_chunk {vs : List Bytes} {ds : List (Bytes × List Bytes × Ast)} {sym : Option (Bytes × Nat)} {ps : List Bytes} {x : C} (hx : Makes vs ds x) {c : CS} {o : Out} {sh : Shape}
    (ht : Tabs c sh) (h : chunkC sym (fun cs => ps.foldl addParam (scope cs)) x c = some o) :
    ∃ b, bodyC x (ps.foldl addParam (scope { c with labels := c.labels + 1 })) = some b ∧ Made [] b ∧ o = ⟨[], ⟨c.labels, b.code ++ [.op 5], sym⟩ :: b.news, b.cs⟩ := by
  obtain ⟨b, h1, rfl⟩ := chunk_some h
  exact ⟨b, h1, made_body hx (tabs_params ht ps) rfl h1, rfl⟩

theorem named_nil {ns : List EC} {strs : List (Bytes × Nat)} (h : List.Forall₂ (DefAt ns strs) (named ns) []) : named ns = [] := by
  generalize named ns = l at h
  cases h
  rfl

/-- **What compilation makes.** -/
theorem comp_makes (a : Ast) : ∀ m, Makes (decls a) (tops a) (comp a m) := by
  induction a with
  | nil => exact fun _ => makes_put _
  | num t => exact fun _ => makes_put _
  | str s => exact fun _ => makes_str _ _
  | bin o a b iha ihb => exact fun _ => ((iha _).seq (ihb _)).seq0 (makes_put _)
  | un o a iha => exact fun _ => (iha _).seq0 (makes_put _)
  | lam ps b ih =>
    intro m
    refine ⟨comp_tabs _ _, comp_grows _ _, fun c o sh ht h => ?_⟩
    have h : (put [.ref 40 c.labels] ⊹ chunkC none (fun cs => ps.foldl addParam (scope cs)) (comp b .val)) c = some o := h
    obtain ⟨u, v, h1, h2, rfl⟩ := seq_some h
    cases h1
    obtain ⟨d, h3, h4, rfl⟩ := made_chunk (ih .val) (sh := sh) (by cases sh <;> exact ht) h2
    show Made (outer sh []) _
    rw [outer_nil]
    refine ⟨fun e he => ?_, ?_⟩
    · rcases List.mem_cons.mp he with rfl | he
      · exact ⟨_, rfl⟩
      · exact h4.ends e he
    · show List.Forall₂ _ (named d.news) []
      rw [named_nil h4.defs]
      exact .nil
  | tnew => exact fun _ => makes_put _
  | tset t k v iht ihv => exact fun _ => ((((iht _).seq0 (makes_put _)).seq0 (makes_key k)).seq (ihv _)).seq0 (makes_put _)
  | id x =>
    intro m
    refine ⟨comp_tabs _ _, comp_grows _ _, fun c o sh ht h => ?_⟩
    cases h
    show Made (outer sh []) _
    rw [outer_nil]
    exact made_nil rfl
  | field r s ih => exact fun _ => ((ih _).seq0 (makes_str _ _)).seq0 (makes_put _)
  | index r e ihr ihe => exact fun _ => (((ihr _).seq0 (makes_put _)).seq (ihe _)).seq0 (makes_put _)
  | call r as ihr ihs => exact fun _ => (((makes_put _).seq1 (ihr _)).seq (ihs _)).seq0 (makes_put _)
  | noArg => exact fun _ => makes_put _
  | arg as a ih1 ih2 => exact fun _ => (ih1 _).seq (ih2 _)
  | decl x =>
    intro m
    refine ⟨comp_tabs _ _, comp_grows _ _, fun c o sh ht h => ?_⟩
    show Made (outer sh []) _
    rw [outer_nil]
    simp only [comp] at h
    split at h
    · cases h
    · split at h
      · cases h; exact made_nil rfl
      · cases h; exact made_nil rfl
  | init x e ih =>
    intro m
    refine ⟨comp_tabs _ _, comp_grows _ _, fun c o sh ht h => ?_⟩
    simp only [comp] at h
    split at h
    · cases h
    · rename_i hloc
      split at h
      · exact (((makes_put _).seq1 (ih _)).seq0 (makes_put _)).2.2 _ _ sh (tabs_addGlobal ht) h
      · rename_i hl
        have := (((makes_put _).seq1 (ih _)).seq0 (makes_put _)).2.2 _ _ _ (tabbed_addLocal ht hl (by simpa using hloc)) h
        rw [outer_ext] at this
        exact this
  | assign r e ihr ihe =>
    intro m
    refine ⟨comp_tabs _ _, comp_grows _ _, fun c o sh ht h => ?_⟩
    exact (((ihr _).seq (ihe _)).seq0 (makes_put _)).2.2 c o sh ht h
  | run r ih => exact fun _ => (ih _).seq0 (makes_put _)
  | func f ps b ih =>
    intro m
    refine ⟨comp_tabs _ _, comp_grows _ _, fun c o sh ht h => ?_⟩
    simp only [comp] at h
    split at h
    · cases h
    · rename_i hlen
      have hk := tabs_known (x := f) ht
      obtain rfl : sh = .top := by
        cases sh with
        | top => rfl
        | inner xs => obtain ⟨⟨ts, b, k, _⟩, _⟩ := ht; rw [k] at hlen; simp at hlen
        | fn xs => obtain ⟨⟨ts, b, k, _⟩, _⟩ := ht; rw [k] at hlen; simp at hlen
      obtain ⟨d, h3, h4, rfl⟩ := made_chunk (ih .val) hk h
      show Made [(f, ps, b)] _
      refine ⟨fun e he => ?_, ?_⟩
      · rcases List.mem_cons.mp he with rfl | he
        · exact ⟨_, rfl⟩
        · exact h4.ends e he
      · show List.Forall₂ _ (_ :: named d.news) [(f, ps, b)]
        rw [named_nil h4.defs]
        refine .cons ⟨_, d, _, rfl, fun hn => ?_, h3, rfl, Sub.refl _, fun x hx => List.mem_cons_of_mem _ hx⟩ .nil
        have h5 := loc_scope_top (c := { known f c with labels := (known f c).labels + 1 }) hk
        exact loc_params ps h5 hn
  | ifs c a ihc iha => exact fun _ => Makes.labels fun _ => (((ihc _).seq0 (makes_put _)).seq (iha _)).seq0 (makes_put _)
  | ite c a b ihc iha ihb =>
    exact fun _ => Makes.labels fun _ => (((((ihc _).seq0 (makes_put _)).seq (iha _)).seq0 (makes_put _)).seq (ihb _)).seq0 (makes_put _)
  | while_ c a ihc iha => exact fun _ => Makes.labels fun _ => ((((makes_put _).seq1 (ihc _)).seq0 (makes_put _)).seq (iha _)).seq0 (makes_put _)
  | for_ i c u a ihi ihc ihu iha =>
    exact fun _ => Makes.labels fun _ => (((((((ihi _).seq0 (makes_put _)).seq (ihc _)).seq0 (makes_put _)).seq (ihu _)).seq0 (makes_put _)).seq (iha _)).seq0 (makes_put _)
  | ret0 => exact fun _ => makes_put _
  | ret e ih => exact fun _ => (ih _).seq0 (makes_put _)
  | block b ih =>
    intro m
    refine ⟨comp_tabs _ _, comp_grows _ _, fun c o sh ht h => ?_⟩
    show Made (outer sh []) _
    rw [outer_nil]
    exact made_body (ih .val) (tabs_block ht) (by cases sh <;> rfl) h
  | skip => exact fun _ => makes_put _
  | seq s l ih1 ih2 => exact fun _ => (ih1 _).seq (ih2 _)

/-! ### Symbols of functions -/

/-- The table of global symbols. -/
def base (c : CS) : Syms := c.symstack.getLastD []

theorem base_eq {c : CS} {ts : List Syms} {b : Syms} (h : c.symstack = ts ++ [b]) : base c = b := by
  unfold base
  rw [h]
  simp

/-- Global symbols are kept, except those declared again. -/
def Kept (D : List Bytes) (c c' : CS) : Prop := ∀ f s, FMap.get (base c) f = some s → f ∈ D ∨ FMap.get (base c') f = some s

theorem Kept.refl (D : List Bytes) (c : CS) : Kept D c c := fun _ _ h => .inr h

theorem Kept.same {D : List Bytes} {c c' : CS} (h : base c' = base c) : Kept D c c' := fun _ _ k => .inr (by rw [h]; exact k)

theorem Kept.trans {D E : List Bytes} {a b c : CS} (h : Kept D a b) (k : Kept E b c) : Kept (D ++ E) a c := fun f s e => by
  rcases h f s e with h | h
  · exact .inl (List.mem_append_left _ h)
  · exact (k f s h).imp (List.mem_append_right _) id

/-- The symbols of named chunks are still there. -/
def Gens (D : List Bytes) (o : Out) : Prop := ∀ e ∈ o.news, ∀ f g, e.sym = some (f, g) → f ∈ D ∨ ∃ s, FMap.get (base o.cs) f = some s ∧ s.gen = g

theorem gens_nil {D : List Bytes} {o : Out} (h : o.news = []) : Gens D o := fun e he => by rw [h] at he; cases he

/-- Compilation that keeps symbols. -/
def Keep (vs : List Bytes) (x : C) : Prop := Tabbed vs x ∧ ∀ c o sh, Tabs c sh → x c = some o → Kept (outer sh vs) c o.cs ∧ Gens (outer sh vs) o

theorem Keep.seq {vs ws : List Bytes} {x y : C} (hx : Keep vs x) (hy : Keep ws y) : Keep (vs ++ ws) (x ⊹ y) := by
  refine ⟨hx.1.seq hy.1, fun c o sh ht h => ?_⟩
  obtain ⟨a, b, h1, h2, rfl⟩ := seq_some h
  obtain ⟨k1, g1⟩ := hx.2 c a sh ht h1
  obtain ⟨k2, g2⟩ := hy.2 a.cs b _ (hx.1 c a sh h1 ht) h2
  rw [outer_ext] at k2 g2
  rw [outer_append]
  refine ⟨k1.trans k2, fun e he f g hs => ?_⟩
  rcases List.mem_append.mp he with he | he
  · rcases g1 e he f g hs with h | ⟨s, h, h'⟩
    · exact .inl (List.mem_append_left _ h)
    · exact (k2 f s h).imp (List.mem_append_right _) fun h => ⟨s, h, h'⟩
  · exact (g2 e he f g hs).imp (List.mem_append_right _) id

theorem keep_put (l : List Ln) : Keep [] (put l) := ⟨(stacks_put l).tabbed, fun c o sh _ h => by cases h; exact ⟨Kept.refl _ _, gens_nil rfl⟩⟩

theorem keep_str (s : Bytes) (k : Nat → List Ln) : Keep [] (withStr s k) :=
  ⟨(stacks_str s k).tabbed, fun c o sh _ h => by cases h; exact ⟨Kept.same rfl, gens_nil rfl⟩⟩

theorem keep_key (k : Key) : Keep [] (keyC k) := by
  cases k with
  | name s => exact keep_str s (fun i => [.num 37 i])
  | num t => exact keep_put _

theorem Keep.seq0 {vs : List Bytes} {x y : C} (hx : Keep vs x) (hy : Keep [] y) : Keep vs (x ⊹ y) := by
  have := hx.seq hy
  rwa [List.append_nil] at this

theorem Keep.labels {vs : List Bytes} {n : Nat} {k : Nat → C} (h : ∀ l, Keep vs (k l)) : Keep vs (withLabels n k) :=
  ⟨Tabbed.labels fun l => (h l).1, fun c o sh ht e => (h c.labels).2 { c with labels := c.labels + n } o sh (by cases sh <;> exact ht) e⟩

theorem base_addGlobal {c : CS} {sh : Shape} (ht : Tabs c sh) (x : Bytes) : base (addGlobal x c) = setGlobal x (stringAdd c.strings x).2 (base c) := by
  obtain ⟨ts, b, h1, _⟩ := ht.split
  rw [base_eq h1]
  refine base_eq (ts := ts) ?_
  show onBase _ c.symstack = _
  rw [h1, onBase_append]

theorem kept_addGlobal {c : CS} {sh : Shape} (ht : Tabs c sh) (x : Bytes) : Kept [x] c (addGlobal x c) := by
  intro f s h
  rw [base_addGlobal ht]
  unfold setGlobal
  by_cases e : f = x
  · exact .inl (by simp [e])
  · right
    rw [FMap.get_set, if_neg e]
    exact h

theorem lookup_last {x : Bytes} {b : Syms} : ∀ {ts : List Syms}, lookup x (ts ++ [b]) = none → FMap.get b x = none
  | [], h => by
    cases hb : FMap.get b x with
    | none => rfl
    | some s => rw [show lookup x ([] ++ [b]) = some s by simp [lookup, hb]] at h; cases h
  | t :: ts, h => by
    refine lookup_last (ts := ts) ?_
    cases ht : FMap.get t x with
    | none => simpa [lookup, ht] using h
    | some s => rw [show lookup x (t :: ts ++ [b]) = some s by simp [lookup, ht]] at h; cases h

theorem kept_known {c : CS} {sh : Shape} (ht : Tabs c sh) (x : Bytes) : Kept [] c (known x c) := by
  unfold known
  split
  · rename_i hl
    intro f s h
    rcases kept_addGlobal ht x f s h with k | k
    · rw [List.mem_singleton] at k
      subst k
      obtain ⟨ts, b, h1, _⟩ := ht.split
      rw [h1] at hl
      rw [base_eq h1, lookup_last hl] at h
      cases h
    · exact .inr k
  · exact Kept.refl _ _

theorem base_cons {c c' : CS} {t : Syms} (h : c'.symstack = t :: c.symstack) (hn : c.symstack ≠ []) : base c' = base c := by
  obtain ⟨ts, b, e⟩ : ∃ ts b, c.symstack = ts ++ [b] := by
    rcases List.eq_nil_or_concat c.symstack with e | ⟨ts, b, e⟩
    · exact absurd e hn
    · exact ⟨ts, b, by rw [e, List.concat_eq_append]⟩
  rw [base_eq e, base_eq (ts := t :: ts) (by rw [h, e]; rfl)]

theorem Tabs.ne {c : CS} {sh : Shape} (h : Tabs c sh) : c.symstack ≠ [] := by
  obtain ⟨ts, b, e, _⟩ := h.split
  rw [e]
  simp

theorem keep_body {vs : List Bytes} {x : C} (hx : Keep vs x) {c : CS} {o : Out} {xs : List Bytes} {sh : Shape} (hsh : sh = .inner xs ∨ sh = .fn xs) (ht : Tabs c sh)
    (h : bodyC x c = some o) : Kept [] c o.cs ∧ Gens [] o := by
  obtain ⟨b, h1, rfl⟩ := body_some h
  obtain ⟨k, g⟩ := hx.2 c b sh ht h1
  have ho : outer sh vs = [] := by rcases hsh with rfl | rfl <;> rfl
  rw [ho] at k g
  have hb : base { b.cs with symstack := b.cs.symstack.tail } = base b.cs := by
    have h2 := hx.1 c b sh h1 ht
    have : ∃ t ts d, b.cs.symstack = t :: (ts ++ [d]) := by
      rcases hsh with rfl | rfl
      · obtain ⟨⟨ts, d, e, _⟩, _⟩ := h2
        exact ⟨_, ts, d, e⟩
      · obtain ⟨⟨ts, d, e, _⟩, _⟩ := h2
        exact ⟨_, ts, d, e⟩
    obtain ⟨t, ts, d, e⟩ := this
    rw [base_eq (c := b.cs) (ts := t :: ts) (by rw [e]; rfl), base_eq (ts := ts) (b := d) (by rw [e]; rfl)]
  refine ⟨fun f s e => ?_, fun e he f gg hs => ?_⟩
  · show _ ∨ FMap.get (base { b.cs with symstack := b.cs.symstack.tail }) f = _
    rw [hb]
    exact k f s e
  · show _ ∨ ∃ s, FMap.get (base { b.cs with symstack := b.cs.symstack.tail }) f = _ ∧ _
    rw [hb]
    exact g e he f gg hs

theorem base_addParam {c : CS} {t : Syms} {ts : List Syms} (x : Bytes) (h : c.symstack = t :: ts) (hn : ts ≠ []) : base (addParam c x) = base c ∧ ∃ t', (addParam c x).symstack = t' :: ts := by
  obtain ⟨t', h'⟩ := stacks_addParam (x := x) h
  refine ⟨?_, t', h'⟩
  have e1 : base (addParam c x) = base (⟨0, ts, []⟩ : CS) := base_cons h' hn
  have e2 : base c = base (⟨0, ts, []⟩ : CS) := base_cons h hn
  rw [e1, e2]

theorem base_params (ps : List Bytes) : ∀ {c : CS} {t : Syms} {ts : List Syms}, c.symstack = t :: ts → ts ≠ [] → base (ps.foldl addParam c) = base c := by
  induction ps with
  | nil => exact fun _ _ => rfl
  | cons p ps ih =>
    intro c t ts h hn
    obtain ⟨e, t', h'⟩ := base_addParam p h hn
    rw [List.foldl_cons, ih h' hn, e]

theorem base_scope {c : CS} (hn : c.symstack ≠ []) : base (scope c) = base c ∧ ∃ t, (scope c).symstack = t :: c.symstack := by
  unfold scope
  split
  · obtain ⟨e, t, h⟩ := base_addParam (c := { c with symstack := [] :: c.symstack }) selfName rfl hn
    rw [e]
    exact ⟨base_cons rfl hn, t, h⟩
  · exact ⟨base_cons rfl hn, _, rfl⟩

theorem keep_chunk {vs : List Bytes} {sym : Option (Bytes × Nat)} {ps : List Bytes} {x : C} (hx : Keep vs x) {c : CS} {o : Out} {sh : Shape} (ht : Tabs c sh)
    (hs : ∀ f g, sym = some (f, g) → ∃ s, FMap.get (base c) f = some s ∧ s.gen = g) (h : chunkC sym (fun cs => ps.foldl addParam (scope cs)) x c = some o) :
    Kept [] c o.cs ∧ Gens [] o := by
  obtain ⟨b, h1, rfl⟩ := chunk_some h
  obtain ⟨k, g⟩ := keep_body hx (.inr rfl) (tabs_params ht ps) h1
  obtain ⟨e1, t, e2⟩ := base_scope (c := { c with labels := c.labels + 1 }) ht.ne
  have e3 := base_params ps e2 ht.ne
  have k' : Kept [] c b.cs := fun f s hf => k f s (by rw [e3, e1]; exact hf)
  refine ⟨k', fun e he f gg hf => ?_⟩
  rcases List.mem_cons.mp he with rfl | he
  · obtain ⟨s, h2, h3⟩ := hs f gg hf
    exact (k' f s h2).imp id fun h => ⟨s, h, h3⟩
  · exact g e he f gg hf

/-- **Compilation keeps the symbols of the functions it has met, except of those declared as variables.** -/
theorem comp_keep (a : Ast) : ∀ m, Keep (decls a) (comp a m) := by
  induction a with
  | nil => exact fun _ => keep_put _
  | num t => exact fun _ => keep_put _
  | str s => exact fun _ => keep_str _ _
  | bin o a b iha ihb => exact fun _ => ((iha _).seq (ihb _)).seq0 (keep_put _)
  | un o a iha => exact fun _ => (iha _).seq0 (keep_put _)
  | lam ps b ih =>
    intro m
    refine ⟨comp_tabs _ _, fun c o sh ht h => ?_⟩
    have h : (put [.ref 40 c.labels] ⊹ chunkC none (fun cs => ps.foldl addParam (scope cs)) (comp b .val)) c = some o := h
    obtain ⟨u, v, h1, h2, rfl⟩ := seq_some h
    cases h1
    show Kept (outer sh []) _ _ ∧ Gens (outer sh []) _
    rw [outer_nil]
    obtain ⟨k, g⟩ := keep_chunk (ih .val) (sh := sh) (by cases sh <;> exact ht) (fun _ _ h => by cases h) h2
    exact ⟨k, g⟩
  | tnew => exact fun _ => keep_put _
  | tset t k v iht ihv => exact fun _ => ((((iht _).seq0 (keep_put _)).seq0 (keep_key k)).seq (ihv _)).seq0 (keep_put _)
  | id x =>
    intro m
    refine ⟨comp_tabs _ _, fun c o sh ht h => ?_⟩
    cases h
    show Kept (outer sh []) _ _ ∧ Gens (outer sh []) _
    rw [outer_nil]
    exact ⟨kept_known ht x, gens_nil rfl⟩
  | field r s ih => exact fun _ => ((ih _).seq0 (keep_str _ _)).seq0 (keep_put _)
  | index r e ihr ihe => exact fun _ => (((ihr _).seq0 (keep_put _)).seq (ihe _)).seq0 (keep_put _)
  | call r as ihr ihs => exact fun _ => (((keep_put _).seq (ihr _)).seq (ihs _)).seq0 (keep_put _)
  | noArg => exact fun _ => keep_put _
  | arg as a ih1 ih2 => exact fun _ => (ih1 _).seq (ih2 _)
  | decl x =>
    intro m
    refine ⟨comp_tabs _ _, fun c o sh ht h => ?_⟩
    simp only [comp] at h
    split at h
    · cases h
    · split at h
      · rename_i hl
        cases h
        obtain rfl := tabs_top ht hl
        exact ⟨kept_addGlobal ht x, gens_nil rfl⟩
      · rename_i hl
        cases h
        refine ⟨Kept.same ?_, gens_nil rfl⟩
        cases sh with
        | top => obtain ⟨b, h1, _⟩ := ht; rw [h1] at hl; simp at hl
        | inner xs =>
          obtain ⟨⟨ts, b, h1, _⟩, _⟩ := ht
          rw [base_eq (c := c) (ts := table xs :: ts) (by rw [h1]; rfl)]
          exact base_eq (ts := _ :: ts) (by show onTop _ c.symstack = _; rw [h1]; rfl)
        | fn xs =>
          obtain ⟨⟨ts, b, h1, _⟩, _⟩ := ht
          rw [base_eq (c := c) (ts := table xs :: ts) (by rw [h1]; rfl)]
          exact base_eq (ts := _ :: ts) (by show onTop _ c.symstack = _; rw [h1]; rfl)
  | init x e ih =>
    intro m
    refine ⟨comp_tabs _ _, fun c o sh ht h => ?_⟩
    simp only [comp] at h
    split at h
    · cases h
    · rename_i hloc
      split at h
      · rename_i hl
        obtain rfl := tabs_top ht hl
        obtain ⟨k, g⟩ := (((keep_put _).seq (ih _)).seq0 (keep_put _)).2 _ _ .top (tabs_addGlobal ht) h
        exact ⟨(kept_addGlobal ht x).trans k, fun e he f gg hs => (g e he f gg hs).imp (List.mem_cons_of_mem _) fun h => h⟩
      · rename_i hl
        obtain ⟨k, g⟩ := (((keep_put _).seq (ih _)).seq0 (keep_put _)).2 _ _ _ (tabbed_addLocal ht hl (by simpa using hloc)) h
        have hb : base (addLocal x c) = base c := by
          cases sh with
          | top => obtain ⟨b, h1, _⟩ := ht; rw [h1] at hl; simp at hl
          | inner xs =>
            obtain ⟨⟨ts, b, h1, _⟩, _⟩ := ht
            rw [base_eq (c := c) (ts := table xs :: ts) (by rw [h1]; rfl)]
            exact base_eq (ts := _ :: ts) (by show onTop _ c.symstack = _; rw [h1]; rfl)
          | fn xs =>
            obtain ⟨⟨ts, b, h1, _⟩, _⟩ := ht
            rw [base_eq (c := c) (ts := table xs :: ts) (by rw [h1]; rfl)]
            exact base_eq (ts := _ :: ts) (by show onTop _ c.symstack = _; rw [h1]; rfl)
        cases sh with
        | top => obtain ⟨b, h1, _⟩ := ht; rw [h1] at hl; simp at hl
        | inner xs => exact ⟨fun f s hf => k f s (by rw [hb]; exact hf), g⟩
        | fn xs => exact ⟨fun f s hf => k f s (by rw [hb]; exact hf), g⟩
  | assign r e ihr ihe =>
    intro m
    refine ⟨comp_tabs _ _, fun c o sh ht h => ?_⟩
    exact (((ihr _).seq (ihe _)).seq0 (keep_put _)).2 c o sh ht h
  | run r ih => exact fun _ => (ih _).seq0 (keep_put _)
  | func f ps b ih =>
    intro m
    refine ⟨comp_tabs _ _, fun c o sh ht h => ?_⟩
    simp only [comp] at h
    split at h
    · cases h
    · rename_i hlen
      have hk := tabs_known (x := f) ht
      obtain rfl : sh = .top := by
        cases sh with
        | top => rfl
        | inner xs => obtain ⟨⟨ts, b, k, _⟩, _⟩ := ht; rw [k] at hlen; simp at hlen
        | fn xs => obtain ⟨⟨ts, b, k, _⟩, _⟩ := ht; rw [k] at hlen; simp at hlen
      show Kept [] _ _ ∧ Gens [] _
      have hg : ∀ f' g, some (f, (symOf f c).gen) = some (f', g) → ∃ s, FMap.get (base (known f c)) f' = some s ∧ s.gen = g := by
        intro f' g hs
        cases hs
        obtain ⟨b', h1, _⟩ := hk
        have hb : base (known f c) = b' := base_eq (ts := []) h1
        have hl := lookup_known f ht.ne
        rw [h1] at hl
        refine ⟨symOf f c, ?_, rfl⟩
        rw [hb]
        simp only [lookup] at hl
        cases hg : FMap.get b' f with
        | some s => rw [hg] at hl; exact hl
        | none => rw [hg] at hl; cases hl
      obtain ⟨k, g⟩ := keep_chunk (ih .val) hk hg h
      exact ⟨(kept_known ht f).trans k, g⟩
  | ifs c a ihc iha => exact fun _ => Keep.labels fun _ => (((ihc _).seq0 (keep_put _)).seq (iha _)).seq0 (keep_put _)
  | ite c a b ihc iha ihb =>
    exact fun _ => Keep.labels fun _ => (((((ihc _).seq0 (keep_put _)).seq (iha _)).seq0 (keep_put _)).seq (ihb _)).seq0 (keep_put _)
  | while_ c a ihc iha => exact fun _ => Keep.labels fun _ => ((((keep_put _).seq (ihc _)).seq0 (keep_put _)).seq (iha _)).seq0 (keep_put _)
  | for_ i c u a ihi ihc ihu iha =>
    exact fun _ => Keep.labels fun _ => (((((((ihi _).seq0 (keep_put _)).seq (ihc _)).seq0 (keep_put _)).seq (ihu _)).seq0 (keep_put _)).seq (iha _)).seq0 (keep_put _)
  | ret0 => exact fun _ => keep_put _
  | ret e ih => exact fun _ => (ih _).seq0 (keep_put _)
  | block b ih =>
    intro m
    refine ⟨comp_tabs _ _, fun c o sh ht h => ?_⟩
    show Kept (outer sh []) _ _ ∧ Gens (outer sh []) _
    rw [outer_nil]
    have hx : ∃ xs, sh.block = .inner xs ∨ sh.block = .fn xs := by
      cases sh with
      | top => exact ⟨_, .inl rfl⟩
      | inner xs => exact ⟨_, .inl rfl⟩
      | fn xs => exact ⟨_, .inr rfl⟩
    obtain ⟨xs, hx⟩ := hx
    obtain ⟨k, g⟩ := keep_body (ih .val) hx (tabs_block ht) h
    refine ⟨fun f s hf => k f s ?_, g⟩
    rw [base_cons (c := c) rfl ht.ne]
    exact hf
  | skip => exact fun _ => keep_put _
  | seq s l ih1 ih2 => exact fun _ => (ih1 _).seq (ih2 _)

end Buzz.Comp
