import Verif.Emit

/-
The string constants of a program in the order in which the compiler numbers them.
-/
namespace Buzz.Lang

open Buzz.Msg

/-- The variables of a shape. -/
def Shape.vars : Shape → List Bytes
  | .top => []
  | .inner xs => xs
  | .fn xs => xs

/-- The variables of a function: those of the function around it, or `self`, and its parameters. -/
def Shape.params (sh : Shape) (ps : List Bytes) : List Bytes :=
  ps.foldl (fun xs p => if p ∈ xs then xs else xs ++ [p]) (match sh with | .top => [self] | .inner xs => xs | .fn xs => xs)

/-- The scope of a block. -/
def Shape.block : Shape → Shape
  | .top => .inner []
  | sh => sh

/-- The strings that a phrase mentions, in the order of the text: its string literals, the names of fields and the names that are not
variables of the function. -/
def mentions : Shape → Ast → List Bytes
  | _, .str s => [s]
  | sh, .bin _ a b => mentions sh a ++ mentions (sh.ext (decls a)) b
  | sh, .un _ a => mentions sh a
  | sh, .lam ps b => mentions (.fn (sh.params ps)) b
  | sh, .tset t k e => mentions sh t ++ (match k with | .name s => [s] | .num _ => []) ++ mentions (sh.ext (decls t)) e
  | sh, .id x => if x ∈ sh.vars then [] else [x]
  | sh, .field r s => mentions sh r ++ [s]
  | sh, .index r e => mentions sh r ++ mentions (sh.ext (decls r)) e
  | sh, .call f as => mentions sh f ++ mentions (sh.ext (decls f)) as
  | sh, .arg as a => mentions sh as ++ mentions (sh.ext (decls as)) a
  | .top, .decl x => [x]
  | _, .decl _ => []
  | .top, .init x e => x :: mentions .top e
  | sh, .init x e => mentions (sh.ext [x]) e
  | sh, .assign r e => mentions sh r ++ mentions (sh.ext (decls r)) e
  | sh, .run r => mentions sh r
  | sh, .func f ps b => f :: mentions (.fn (sh.params ps)) b
  | sh, .ifs c a => mentions sh c ++ mentions (sh.ext (decls c)) a
  | sh, .ite c a b => mentions sh c ++ mentions (sh.ext (decls c)) a ++ mentions (sh.ext (decls c ++ decls a)) b
  | sh, .while_ c a => mentions sh c ++ mentions (sh.ext (decls c)) a
  | sh, .for_ i c u a => mentions sh i ++ mentions (sh.ext (decls i)) c ++ mentions (sh.ext (decls i ++ decls c)) u ++ mentions (sh.ext (decls i ++ decls c ++ decls u)) a
  | sh, .ret e => mentions sh e
  | sh, .block b => mentions sh.block b
  | sh, .seq s l => mentions sh s ++ mentions (sh.ext (decls s)) l
  | _, _ => []

end Buzz.Lang

namespace Buzz.Comp

open Buzz.Msg Buzz.Parser Buzz.Lang

/-- The table of strings after adding some. -/
def addAll (t : List (Bytes × Nat)) (ss : List Bytes) : List (Bytes × Nat) := ss.foldl (fun t s => (stringAdd t s).1) t

theorem addAll_append (t : List (Bytes × Nat)) (a b : List Bytes) : addAll t (a ++ b) = addAll (addAll t a) b := List.foldl_append ..

/-- Strings numbered in order. -/
def numbered (ss : List Bytes) : List (Bytes × Nat) := ss.zipIdx.map (fun e => (e.1, e.2 % 65536))

theorem numbered_names (ss : List Bytes) : (numbered ss).map (·.1) = ss := by
  unfold numbered
  rw [List.map_map]
  exact List.zipIdx_map_fst ..

theorem numbered_length (ss : List Bytes) : (numbered ss).length = ss.length := by simp [numbered]

theorem numbered_append (ss : List Bytes) (s : Bytes) : numbered (ss ++ [s]) = numbered ss ++ [(s, ss.length % 65536)] := by
  simp [numbered, List.zipIdx_append]

theorem numbered_get_none {ss : List Bytes} {s : Bytes} (h : s ∉ ss) : FMap.get (numbered ss) s = none := by
  rw [FMap.get_eq_none_iff, numbered_names]
  exact h

theorem numbered_get {ss : List Bytes} (hn : ss.Nodup) {i : Nat} {s : Bytes} (h : ss[i]? = some s) : FMap.get (numbered ss) s = some (i % 65536) := by
  refine FMap.get_of_mem ?_ ?_
  · unfold FMap.Ok
    rw [numbered_names]
    exact hn
  · unfold numbered
    rw [List.mem_map]
    exact ⟨(s, i), by rw [List.mem_zipIdx_iff_getElem?]; exact h, rfl⟩

/-- The distinct strings of a list in the order of their first occurrences. -/
def firsts (ss : List Bytes) : List Bytes := ss.foldl (fun xs s => if s ∈ xs then xs else xs ++ [s]) []

theorem add_numbered {ss : List Bytes} (s : Bytes) : (stringAdd (numbered ss) s).1 = numbered (if s ∈ ss then ss else ss ++ [s]) := by
  unfold stringAdd
  by_cases h : s ∈ ss
  · rw [if_pos h]
    cases hg : FMap.get (numbered ss) s with
    | some i => rfl
    | none =>
      rw [FMap.get_eq_none_iff, numbered_names] at hg
      exact absurd h hg
  · rw [if_neg h, numbered_get_none h, numbered_append]
    have := FMap.del_of_get_none (numbered_get_none h)
    unfold FMap.del at this
    show FMap.set _ _ _ = _
    unfold FMap.set
    rw [this, numbered_length]

theorem addAll_numbered (ss : List Bytes) : ∀ xs : List Bytes, addAll (numbered xs) ss = numbered (ss.foldl (fun xs s => if s ∈ xs then xs else xs ++ [s]) xs) := by
  induction ss with
  | nil => exact fun _ => rfl
  | cons s ss ih =>
    intro xs
    show addAll (stringAdd (numbered xs) s).1 ss = _
    rw [add_numbered, ih]
    rfl

theorem firsts_nodup (ss : List Bytes) : (firsts ss).Nodup := by
  unfold firsts
  have : ∀ (ss xs : List Bytes), xs.Nodup → (ss.foldl (fun xs s => if s ∈ xs then xs else xs ++ [s]) xs).Nodup := by
    intro ss
    induction ss with
    | nil => exact fun xs h => h
    | cons s ss ih =>
      intro xs h
      refine ih _ ?_
      show (if s ∈ xs then xs else xs ++ [s]).Nodup
      by_cases hs : s ∈ xs
      · rw [if_pos hs]; exact h
      · rw [if_neg hs]
        rw [List.nodup_append]
        refine ⟨h, by simp, ?_⟩
        intro a ha b hb hab
        rw [List.mem_singleton] at hb
        exact hs (hb ▸ hab ▸ ha)
  exact this ss [] List.nodup_nil

theorem mem_firsts {s : Bytes} : ∀ (ss xs : List Bytes), s ∈ ss.foldl (fun xs s => if s ∈ xs then xs else xs ++ [s]) xs ↔ s ∈ xs ∨ s ∈ ss := by
  intro ss
  induction ss with
  | nil => intro xs; simp
  | cons u ss ih =>
    intro xs
    rw [List.foldl_cons, ih]
    by_cases hu : u ∈ xs
    · rw [if_pos hu, List.mem_cons]
      constructor
      · rintro (h | h)
        · exact .inl h
        · exact .inr (.inr h)
      · rintro (h | rfl | h)
        · exact .inl h
        · exact .inl hu
        · exact .inr h
    · rw [if_neg hu, List.mem_append, List.mem_singleton, List.mem_cons]
      tauto

/-! ### What compiling adds -/

/-- The strings that compiling adds in a scope. -/
def Says (ds : List Bytes) (ms : Shape → List Bytes) (x : C) : Prop := ∀ c o sh, Tabs c sh → x c = some o → o.cs.strings = addAll c.strings (ms sh) ∧ Tabs o.cs (sh.ext ds)

theorem Says.seq {ds es : List Bytes} {ms ns : Shape → List Bytes} {x y : C} (hx : Says ds ms x) (hy : Says es ns y) :
    Says (ds ++ es) (fun sh => ms sh ++ ns (sh.ext ds)) (x ⊹ y) := by
  intro c o sh ht h
  obtain ⟨a, b, h1, h2, rfl⟩ := seq_some h
  obtain ⟨e1, t1⟩ := hx c a sh ht h1
  obtain ⟨e2, t2⟩ := hy a.cs b _ t1 h2
  refine ⟨?_, ?_⟩
  · show b.cs.strings = _
    rw [e2, e1, addAll_append]
  · rwa [Shape.ext_ext] at t2

theorem says_put (l : List Ln) : Says [] (fun _ => []) (put l) := by
  intro c o sh ht h
  cases h
  exact ⟨rfl, by rwa [Shape.ext_nil]⟩

theorem Says.seq0 {ds : List Bytes} {ms : Shape → List Bytes} {x : C} {l : List Ln} (hx : Says ds ms x) : Says ds ms (x ⊹ put l) := by
  have := hx.seq (says_put l)
  simpa only [List.append_nil] using this

theorem Says.seq1 {ds : List Bytes} {ms : Shape → List Bytes} {x : C} {l : List Ln} (hx : Says ds ms x) : Says ds ms (put l ⊹ x) := by
  have := (says_put l).seq hx
  simpa only [List.nil_append, Shape.ext_nil] using this

theorem says_str (s : Bytes) (k : Nat → List Ln) : Says [] (fun _ => [s]) (withStr s k) := by
  intro c o sh ht h
  cases h
  exact ⟨rfl, (stacks_str s k).tabbed c _ sh rfl ht⟩

theorem says_key (k : Key) : Says [] (fun _ => match k with | .name s => [s] | .num _ => []) (keyC k) := by
  cases k with
  | name s => exact says_str s (fun i => [.num 37 i])
  | num t => exact says_put _

theorem Tabs.lookup_out {c : CS} {sh : Shape} (h : Tabs c sh) {x : Bytes} (hx : x ∉ sh.vars) : ∃ b, BaseOk b c.strings ∧ lookup x c.symstack = FMap.get b x := by
  cases sh with
  | top =>
    obtain ⟨b, h1, h2⟩ := h
    exact ⟨b, h2, by rw [h1, lookup_base]⟩
  | inner xs => exact Loc.lookup_out h hx
  | fn xs => exact Loc.lookup_out h hx

theorem add_known {t : List (Bytes × Nat)} {s : Bytes} {i : Nat} (h : FMap.get t s = some i) : (stringAdd t s).1 = t := by
  unfold stringAdd
  rw [h]

theorem known_strings {c : CS} {sh : Shape} (h : Tabs c sh) (x : Bytes) : (known x c).strings = addAll c.strings (if x ∈ sh.vars then [] else [x]) := by
  by_cases hx : x ∈ sh.vars
  · rw [if_pos hx]
    have : ∃ s, lookup x c.symstack = some s := by
      cases sh with
      | top => cases hx
      | inner xs =>
        obtain ⟨i, hi⟩ := List.mem_iff_getElem?.mp hx
        exact ⟨_, Loc.lookup_in h hi⟩
      | fn xs =>
        obtain ⟨i, hi⟩ := List.mem_iff_getElem?.mp hx
        exact ⟨_, Loc.lookup_in h hi⟩
    obtain ⟨s, hs⟩ := this
    unfold known
    rw [if_neg (by rw [hs]; simp)]
    rfl
  · rw [if_neg hx]
    show _ = (stringAdd c.strings x).1
    unfold known
    split
    · rfl
    · rename_i hn
      obtain ⟨b, hb, e⟩ := h.lookup_out hx
      rw [e] at hn
      cases hg : FMap.get b x with
      | none => exact absurd hg hn
      | some s => rw [add_known (hb _ (FMap.mem_of_get hg)).2]

/-- The parameters of a function extend its variables. -/
theorem loc_params' (ps : List Bytes) : ∀ {c : CS} {xs : List Bytes}, Loc c.symstack xs c.strings →
    Loc (ps.foldl addParam c).symstack (ps.foldl (fun xs p => if p ∈ xs then xs else xs ++ [p]) xs) (ps.foldl addParam c).strings := by
  induction ps with
  | nil => exact fun h => h
  | cons p ps ih =>
    intro c xs h
    rw [List.foldl_cons, List.foldl_cons]
    by_cases hp : p ∈ xs
    · rw [if_pos hp]
      have e : addParam c p = c := by
        unfold addParam
        obtain ⟨i, hi⟩ := List.mem_iff_getElem?.mp hp
        have := h.lookup_in hi
        have : isLocal p c = true := by
          unfold isLocal
          rw [this]
          rfl
        rw [if_pos this]
      rw [e]
      exact ih h
    · rw [if_neg hp]
      have e : addParam c p = addLocal p c := by
        unfold addParam
        rw [isLocal_out (l := c.labels) h hp]
        rfl
      rw [e]
      exact ih (h.add hp)

/-- The scope of a function. -/
theorem tabs_params {c : CS} {sh : Shape} (h : Tabs c sh) (ps : List Bytes) : Tabs (ps.foldl addParam (scope { c with labels := c.labels + 1 })) (.fn (sh.params ps)) := by
  cases sh with
  | top => exact loc_params' ps (loc_scope_top (c := { c with labels := c.labels + 1 }) h)
  | inner xs => exact loc_params' ps (loc_scope (c := { c with labels := c.labels + 1 }) h)
  | fn xs => exact loc_params' ps (loc_scope (c := { c with labels := c.labels + 1 }) h)

theorem chunk_says {ds : List Bytes} {ms : Shape → List Bytes} {sym : Option (Bytes × Nat)} {ps : List Bytes} {x : C} (hx : Says ds ms x) {c : CS} {o : Out} {sh : Shape}
    (ht : Tabs c sh) (h : chunkC sym (fun cs => ps.foldl addParam (scope cs)) x c = some o) : o.cs.strings = addAll c.strings (ms (.fn (sh.params ps))) := by
  obtain ⟨b, h1, rfl⟩ := chunk_some h
  obtain ⟨b', h2, rfl⟩ := body_some h1
  obtain ⟨e, _⟩ := hx _ _ _ (tabs_params ht ps) h2
  rw [params_strings, scope_strings] at e
  exact e

theorem Says.labels {ds : List Bytes} {ms : Shape → List Bytes} {n : Nat} {k : Nat → C} (h : ∀ l, Says ds ms (k l)) : Says ds ms (withLabels n k) :=
  fun c o sh ht e => h c.labels { c with labels := c.labels + n } o sh (by cases sh <;> exact ht) e

theorem Says.of {a : Ast} {ms : Shape → List Bytes} {m : Mode} (h : ∀ c o sh, Tabs c sh → comp a m c = some o → o.cs.strings = addAll c.strings (ms sh)) :
    Says (decls a) ms (comp a m) := fun c o sh ht e => ⟨h c o sh ht e, comp_tabs a m c o sh e ht⟩

theorem tabs_block {c : CS} {sh : Shape} (h : Tabs c sh) :
    Tabs { c with symstack := (if c.symstack.length = 1 then [] else c.symstack.headD []) :: c.symstack } sh.block := by
  cases sh with
  | top =>
    obtain ⟨b, h1, h2⟩ := h
    rw [if_pos (by rw [h1]; rfl)]
    exact ⟨⟨[], b, by rw [h1]; rfl, by simp, h2⟩, List.nodup_nil⟩
  | inner xs =>
    rw [if_neg (Loc.length h)]
    exact loc_copy h
  | fn xs =>
    rw [if_neg (Loc.length h)]
    exact loc_copy h

/-- **Compiling a phrase adds the strings it mentions to the table, in the order of the text.** -/
theorem comp_says (a : Ast) : ∀ m, Says (decls a) (fun sh => mentions sh a) (comp a m) := by
  induction a with
  | nil => exact fun _ => says_put _
  | num t => exact fun _ => says_put _
  | str s => exact fun _ => says_str _ _
  | bin o a b iha ihb => exact fun _ => ((iha _).seq (ihb _)).seq0
  | un o a iha => exact fun _ => (iha _).seq0
  | lam ps b ih =>
    refine fun m => Says.of fun c o sh ht h => ?_
    have h : (put [.ref 40 c.labels] ⊹ chunkC none (fun cs => ps.foldl addParam (scope cs)) (comp b .val)) c = some o := h
    obtain ⟨u, v, h1, h2, rfl⟩ := seq_some h
    cases h1
    exact chunk_says (o := v) (ih .val) ht h2
  | tnew => exact fun _ => says_put _
  | tset t k v iht ihv =>
    intro m
    have := (((iht .val).seq0 (l := [.op 3])).seq (says_key k)).seq (ihv .val)
    simp only [List.append_nil] at this
    exact this.seq0
  | id x => exact fun m => Says.of fun c o sh ht h => by cases h; exact known_strings ht x
  | field r s ih =>
    intro m
    have := (ih .val).seq (says_str s (fun i => (if m = .callee then [.op 3] else []) ++ [.num 37 i]))
    simp only [List.append_nil] at this
    exact this.seq0
  | index r e ihr ihe => exact fun m => (((ihr _).seq0).seq (ihe _)).seq0
  | call r as ihr ihs => exact fun m => (((ihr _).seq1).seq (ihs _)).seq0
  | noArg => exact fun _ => says_put _
  | arg as a ih1 ih2 => exact fun _ => (ih1 _).seq (ih2 _)
  | decl x =>
    refine fun m => Says.of fun c o sh ht h => ?_
    simp only [comp] at h
    split at h
    · cases h
    · split at h
      · rename_i hl
        obtain rfl := tabs_top ht hl
        cases h
        rfl
      · rename_i hl
        cases h
        cases sh with
        | top =>
          obtain ⟨b, h1, _⟩ := ht
          rw [h1] at hl
          exact absurd rfl hl
        | _ => rfl
  | init x e ih =>
    refine fun m => Says.of fun c o sh ht h => ?_
    simp only [comp] at h
    split at h
    · cases h
    · rename_i hloc
      split at h
      · rename_i hl
        obtain rfl := tabs_top ht hl
        obtain ⟨e1, _⟩ := (((ih .val).seq1).seq0) (addGlobal x c) o .top (tabs_addGlobal ht) h
        rw [e1]
        rfl
      · rename_i hl
        obtain ⟨e1, _⟩ := (((ih .val).seq1).seq0) (addLocal x c) o _ (tabbed_addLocal ht hl (by simpa using hloc)) h
        rw [e1]
        cases sh with
        | top =>
          obtain ⟨b, h1, _⟩ := ht
          rw [h1] at hl
          exact absurd rfl hl
        | _ => rfl
  | assign r e ihr ihe =>
    intro m c o sh ht h
    exact (((ihr .lval).seq (ihe .val)).seq0 (l := storeOp r c)) c o sh ht h
  | run r ih => exact fun _ => (ih _).seq0
  | func f ps b ih =>
    refine fun m => Says.of fun c o sh ht h => ?_
    simp only [comp] at h
    split at h
    · cases h
    · rename_i hl
      have hsh : sh = .top := by
        cases sh with
        | top => rfl
        | inner xs => obtain ⟨⟨ts, b, h1, _⟩, _⟩ := ht; rw [h1] at hl; simp at hl
        | fn xs => obtain ⟨⟨ts, b, h1, _⟩, _⟩ := ht; rw [h1] at hl; simp at hl
      subst hsh
      rw [chunk_says (ih .val) (tabs_known ht) h, known_strings ht]
      rfl
  | ifs c a ihc iha => exact fun _ => Says.labels fun _ => (((ihc _).seq0).seq (iha _)).seq0
  | ite c a b ihc iha ihb => exact fun _ => Says.labels fun _ => (((((ihc _).seq0).seq (iha _)).seq0).seq (ihb _)).seq0
  | while_ c a ihc iha => exact fun _ => Says.labels fun _ => ((((ihc _).seq1).seq0).seq (iha _)).seq0
  | for_ i c u a ihi ihc ihu iha =>
    exact fun _ => Says.labels fun _ => (((((((ihi _).seq0).seq (ihc _)).seq0).seq (ihu _)).seq0).seq (iha _)).seq0
  | ret0 => exact fun _ => says_put _
  | ret e ih => exact fun _ => (ih _).seq0
  | block b ih =>
    refine fun m => Says.of fun c o sh ht h => ?_
    have h : bodyC (comp b .val) { c with symstack := (if c.symstack.length = 1 then [] else c.symstack.headD []) :: c.symstack } = some o := h
    obtain ⟨u, h1, rfl⟩ := body_some h
    exact ((ih .val) _ _ _ (tabs_block ht) h1).1
  | skip => exact fun _ => says_put _
  | seq s l ih1 ih2 => exact fun _ => (ih1 _).seq (ih2 _)

end Buzz.Comp
