import Verif.CompStat
import Verif.SemShape

/-
The symbol tables of the compiler follow the scope of the program.
-/
namespace Buzz.Comp

open Buzz.Msg Buzz.Parser Buzz.Lang
open Buzz.VM (Bin Un)

/-! ### String constants keep their numbers -/

/-- Every string of `a` has the same number in `b`. -/
def Sub (a b : List (Bytes × Nat)) : Prop := ∀ x i, FMap.get a x = some i → FMap.get b x = some i

theorem Sub.refl (a : List (Bytes × Nat)) : Sub a a := fun _ _ h => h

theorem Sub.trans {a b c : List (Bytes × Nat)} (h : Sub a b) (k : Sub b c) : Sub a c := fun x i e => k x i (h x i e)

theorem sub_add (a : List (Bytes × Nat)) (s : Bytes) : Sub a (stringAdd a s).1 := by
  intro x i h
  unfold stringAdd
  cases hs : FMap.get a s with
  | some j => exact h
  | none =>
    simp only [FMap.get_set]
    rw [if_neg]
    · exact h
    · rintro rfl
      rw [h] at hs
      cases hs

theorem get_add (a : List (Bytes × Nat)) (s : Bytes) : FMap.get (stringAdd a s).1 s = some (stringAdd a s).2 := by
  unfold stringAdd
  cases hs : FMap.get a s with
  | some j => exact hs
  | none => exact FMap.get_set_self _ _ _

/-- Compiling keeps the numbers of strings. -/
def Grows (x : C) : Prop := ∀ c o, x c = some o → Sub c.strings o.cs.strings

theorem Grows.seq {x y : C} (hx : Grows x) (hy : Grows y) : Grows (x ⊹ y) := by
  intro c o h
  obtain ⟨a, b, h1, h2, rfl⟩ := seq_some h
  exact Sub.trans (hx _ _ h1) (hy _ b h2)

theorem grows_put (l : List Ln) : Grows (put l) := by
  intro c o h
  cases h
  exact Sub.refl _

theorem grows_str (s : Bytes) (k : Nat → List Ln) : Grows (withStr s k) := by
  intro c o h
  cases h
  exact sub_add _ _

theorem sub_known (x : Bytes) (c : CS) : Sub c.strings (known x c).strings := by
  unfold known
  split
  · exact sub_add _ _
  · exact Sub.refl _

theorem addParam_strings (c : CS) (x : Bytes) : (addParam c x).strings = c.strings := by
  unfold addParam
  split <;> rfl

theorem params_strings (ps : List Bytes) : ∀ c : CS, (ps.foldl addParam c).strings = c.strings := by
  induction ps with
  | nil => exact fun _ => rfl
  | cons p ps ih =>
    intro c
    rw [List.foldl_cons, ih, addParam_strings]

theorem scope_strings (c : CS) : (scope c).strings = c.strings := by
  unfold scope
  split
  · rw [addParam_strings]
  · rfl

theorem Grows.body {x : C} (hx : Grows x) : Grows (bodyC x) := by
  intro c o h
  obtain ⟨b, h1, rfl⟩ := body_some h
  exact hx _ b h1

theorem Grows.chunk {sym : Option (Bytes × Nat)} {ps : List Bytes} {x : C} (hx : Grows x) : Grows (chunkC sym (fun cs => ps.foldl addParam (scope cs)) x) := by
  intro c o h
  obtain ⟨b, h1, rfl⟩ := chunk_some h
  have := hx.body _ _ h1
  rw [params_strings, scope_strings] at this
  exact this

theorem grows_key (k : Key) : Grows (keyC k) := by
  cases k with
  | name s => exact grows_str s (fun i => [.num 37 i])
  | num t => exact grows_put _

theorem Grows.labels {n : Nat} {k : Nat → C} (h : ∀ l, Grows (k l)) : Grows (withLabels n k) := fun c o e => h c.labels { c with labels := c.labels + n } o e

theorem comp_grows (a : Ast) : ∀ m, Grows (comp a m) := by
  induction a with
  | nil => exact fun _ => grows_put _
  | num t => exact fun _ => grows_put _
  | str s => exact fun _ => grows_str _ _
  | bin o a b iha ihb => exact fun _ => ((iha _).seq (ihb _)).seq (grows_put _)
  | un o a iha => exact fun _ => (iha _).seq (grows_put _)
  | lam ps b ih =>
    intro m c o h
    exact (grows_put _).seq (ih _).chunk c o h
  | tnew => exact fun _ => grows_put _
  | tset t k v iht ihv => exact fun _ => ((((iht _).seq (grows_put _)).seq (grows_key k)).seq (ihv _)).seq (grows_put _)
  | id x =>
    intro m c o h
    cases h
    exact sub_known _ _
  | field r s ih => exact fun _ => ((ih _).seq (grows_str _ _)).seq (grows_put _)
  | index r e ihr ihe => exact fun _ => (((ihr _).seq (grows_put _)).seq (ihe _)).seq (grows_put _)
  | call r as ihr ihs => exact fun _ => (((grows_put _).seq (ihr _)).seq (ihs _)).seq (grows_put _)
  | noArg => exact fun _ => grows_put _
  | arg as a ih1 ih2 => exact fun _ => (ih1 _).seq (ih2 _)
  | decl x =>
    intro m c o h
    simp only [comp] at h
    split at h
    · cases h
    · split at h
      · cases h; exact sub_add _ _
      · cases h; exact Sub.refl _
  | init x e ih =>
    intro m c o h
    simp only [comp] at h
    split at h
    · cases h
    · split at h
      · exact (sub_add c.strings x).trans (((grows_put _).seq (ih _)).seq (grows_put _) _ _ h)
      · exact ((grows_put _).seq (ih _)).seq (grows_put _) (addLocal x c) _ h
  | assign r e ihr ihe =>
    intro m c o h
    exact ((ihr _).seq (ihe _)).seq (grows_put _) c o h
  | run r ih => exact fun _ => (ih _).seq (grows_put _)
  | func f ps b ih =>
    intro m c o h
    simp only [comp] at h
    split at h
    · cases h
    · exact (sub_known f c).trans ((ih _).chunk _ _ h)
  | ifs c a ihc iha => exact fun _ => Grows.labels fun _ => (((ihc _).seq (grows_put _)).seq (iha _)).seq (grows_put _)
  | ite c a b ihc iha ihb =>
    exact fun _ => Grows.labels fun _ => (((((ihc _).seq (grows_put _)).seq (iha _)).seq (grows_put _)).seq (ihb _)).seq (grows_put _)
  | while_ c a ihc iha => exact fun _ => Grows.labels fun _ => ((((grows_put _).seq (ihc _)).seq (grows_put _)).seq (iha _)).seq (grows_put _)
  | for_ i c u a ihi ihc ihu iha =>
    exact fun _ => Grows.labels fun _ => (((((((ihi _).seq (grows_put _)).seq (ihc _)).seq (grows_put _)).seq (ihu _)).seq (grows_put _)).seq (iha _)).seq (grows_put _)
  | ret0 => exact fun _ => grows_put _
  | ret e ih => exact fun _ => (ih _).seq (grows_put _)
  | block b ih =>
    intro m c o h
    exact (ih .val).body { c with symstack := (if c.symstack.length = 1 then [] else c.symstack.headD []) :: c.symstack } o h
  | skip => exact fun _ => grows_put _
  | seq s l ih1 ih2 => exact fun _ => (ih1 _).seq (ih2 _)

/-! ### The tables -/

/-- The table of local variables in the order of their slots. -/
def table (xs : List Bytes) : Syms := xs.zipIdx.map (fun e => (e.1, ⟨e.2, false, 0⟩))

/-- Global symbols have the number of their name. -/
def BaseOk (b : Syms) (strs : List (Bytes × Nat)) : Prop := ∀ e ∈ b, e.2.global = true ∧ FMap.get strs e.1 = some e.2.pos

/-- Local symbol tables: the top one has the variables `xs`, those below only some of them, and the last one has the global symbols. -/
structure Loc (ss : List Syms) (xs : List Bytes) (strs : List (Bytes × Nat)) : Prop where
  split : ∃ ts b, ss = table xs :: (ts ++ [b]) ∧ (∀ t ∈ ts, ∀ e ∈ t, e.1 ∈ xs) ∧ BaseOk b strs
  nodup : xs.Nodup

/-- The tables of a compiler that has the variables of a shape in scope. -/
def Tabs (c : CS) : Shape → Prop
  | .top => ∃ b, c.symstack = [b] ∧ BaseOk b c.strings
  | .inner xs => Loc c.symstack xs c.strings
  | .fn xs => Loc c.symstack xs c.strings

theorem BaseOk.mono {b : Syms} {s s' : List (Bytes × Nat)} (h : BaseOk b s) (k : Sub s s') : BaseOk b s' := fun e he => ⟨(h e he).1, k _ _ (h e he).2⟩

theorem table_length (xs : List Bytes) : (table xs).length = xs.length := by simp [table]

theorem table_append (xs : List Bytes) (x : Bytes) : table (xs ++ [x]) = table xs ++ [(x, ⟨xs.length, false, 0⟩)] := by
  simp [table, List.zipIdx_append]

theorem table_names (xs : List Bytes) : (table xs).map (·.1) = xs := by
  unfold table
  rw [List.map_map]
  show xs.zipIdx.map Prod.fst = xs
  exact List.zipIdx_map_fst ..

theorem get_table_none {xs : List Bytes} {x : Bytes} (h : x ∉ xs) : FMap.get (table xs) x = none := by
  rw [FMap.get_eq_none_iff, table_names]
  exact h

theorem get_table {xs : List Bytes} (hn : xs.Nodup) {i : Nat} {x : Bytes} (h : xs[i]? = some x) : FMap.get (table xs) x = some ⟨i, false, 0⟩ := by
  refine FMap.get_of_mem ?_ ?_
  · unfold FMap.Ok
    rw [table_names]
    exact hn
  · unfold table
    rw [List.mem_map]
    exact ⟨(x, i), by rw [List.mem_zipIdx_iff_getElem?]; exact h, rfl⟩

theorem set_table {xs : List Bytes} {x : Bytes} (h : x ∉ xs) : FMap.set (table xs) x ⟨(table xs).length, false, 0⟩ = table (xs ++ [x]) := by
  have := FMap.del_of_get_none (get_table_none h)
  unfold FMap.set
  unfold FMap.del at this
  rw [this, table_append, table_length]

theorem lookup_append_none {x : Bytes} {ts us : List Syms} (h : ∀ t ∈ ts, ∀ e ∈ t, e.1 ≠ x) : lookup x (ts ++ us) = lookup x us := by
  induction ts with
  | nil => rfl
  | cons t ts ih =>
    show (match FMap.get t x with | some s => some s | none => lookup x (ts ++ us)) = _
    have : FMap.get t x = none := by
      rw [FMap.get_eq_none_iff, List.mem_map]
      rintro ⟨e, he, hx⟩
      exact h t (List.mem_cons_self ..) e he hx
    rw [this]
    exact ih fun t ht => h t (List.mem_cons_of_mem _ ht)

theorem lookup_base {x : Bytes} {b : Syms} : lookup x [b] = FMap.get b x := by
  show (match FMap.get b x with | some s => some s | none => none) = _
  cases FMap.get b x <;> rfl

/-- A local variable is found at its slot. -/
theorem Loc.lookup_in {ss : List Syms} {xs : List Bytes} {strs : List (Bytes × Nat)} (h : Loc ss xs strs) {i : Nat} {x : Bytes} (hx : xs[i]? = some x) :
    lookup x ss = some ⟨i, false, 0⟩ := by
  obtain ⟨ts, b, rfl, _, _⟩ := h.split
  show (match FMap.get (table xs) x with | some s => some s | none => _) = _
  rw [get_table h.nodup hx]

/-- Other names are looked up in the base table. -/
theorem Loc.lookup_out {ss : List Syms} {xs : List Bytes} {strs : List (Bytes × Nat)} (h : Loc ss xs strs) {x : Bytes} (hx : x ∉ xs) :
    ∃ b, BaseOk b strs ∧ lookup x ss = FMap.get b x := by
  obtain ⟨ts, b, rfl, h1, h2⟩ := h.split
  refine ⟨b, h2, ?_⟩
  show (match FMap.get (table xs) x with | some s => some s | none => lookup x (ts ++ [b])) = _
  rw [get_table_none hx]
  simp only
  rw [lookup_append_none (x := x) (fun t ht e he hxe => hx (by rw [← hxe]; exact h1 t ht e he)), lookup_base]

/-! ### Adding symbols -/

theorem onBase_append (f : Syms → Syms) (ts : List Syms) (b : Syms) : onBase f (ts ++ [b]) = ts ++ [f b] := by
  induction ts with
  | nil => rfl
  | cons t ts ih =>
    cases ts with
    | nil => rfl
    | cons u us =>
      show t :: onBase f (u :: us ++ [b]) = _
      rw [ih]
      rfl

theorem baseOk_set {b : Syms} {strs : List (Bytes × Nat)} (h : BaseOk b strs) (x : Bytes) : BaseOk (setGlobal x (stringAdd strs x).2 b) (stringAdd strs x).1 := by
  intro e he
  unfold setGlobal at he
  rw [FMap.mem_set] at he
  rcases he with ⟨he, _⟩ | he
  · exact ⟨(h e he).1, sub_add _ _ _ _ (h e he).2⟩
  · rw [he]
    exact ⟨rfl, get_add _ _⟩

/-- What a piece of compilation does to the tables: the new variables `ds` are added to the top one, unless it is the base table, and the base
table may get more global symbols. -/
def Stacks (ds : List Bytes) (x : C) : Prop := ∀ c o, x c = some o → ∀ ts b, c.symstack = ts ++ [b] → BaseOk b c.strings →
  ∃ b', BaseOk b' o.cs.strings ∧ o.cs.symstack = (match ts with | [] => [] | t :: ts => ds.foldl (fun t x => FMap.set t x ⟨t.length, false, 0⟩) t :: ts) ++ [b']

theorem Stacks.seq {ds es : List Bytes} {x y : C} (hx : Stacks ds x) (hy : Stacks es y) : Stacks (ds ++ es) (x ⊹ y) := by
  intro c o h ts b hc hb
  obtain ⟨u, v, h1, h2, rfl⟩ := seq_some h
  obtain ⟨b1, hb1, e1⟩ := hx _ _ h1 ts b hc hb
  obtain ⟨b2, hb2, e2⟩ := hy _ _ h2 _ b1 e1 hb1
  refine ⟨b2, hb2, ?_⟩
  show v.cs.symstack = _
  rw [e2]
  cases ts with
  | nil => rfl
  | cons t ts => simp

theorem Stacks.seq0 {ds : List Bytes} {x y : C} (hx : Stacks ds x) (hy : Stacks [] y) : Stacks ds (x ⊹ y) := by
  have := hx.seq hy
  rwa [List.append_nil] at this

theorem stacks_put (l : List Ln) : Stacks [] (put l) := by
  intro c o h ts b hc hb
  cases h
  refine ⟨b, hb, ?_⟩
  rw [hc]
  cases ts <;> rfl

theorem stacks_str (s : Bytes) (k : Nat → List Ln) : Stacks [] (withStr s k) := by
  intro c o h ts b hc hb
  cases h
  refine ⟨b, hb.mono (sub_add _ _), ?_⟩
  show c.symstack = _
  rw [hc]
  cases ts <;> rfl

theorem stacks_key (k : Key) : Stacks [] (keyC k) := by
  cases k with
  | name s => exact stacks_str s (fun i => [.num 37 i])
  | num t => exact stacks_put _

theorem stacks_addGlobal {x : Bytes} {c : CS} {ts : List Syms} {b : Syms} (hc : c.symstack = ts ++ [b]) (hb : BaseOk b c.strings) :
    ∃ b', BaseOk b' (addGlobal x c).strings ∧ (addGlobal x c).symstack = ts ++ [b'] := by
  refine ⟨_, baseOk_set hb x, ?_⟩
  show onBase _ c.symstack = _
  rw [hc, onBase_append]

theorem stacks_known {x : Bytes} {c : CS} {ts : List Syms} {b : Syms} (hc : c.symstack = ts ++ [b]) (hb : BaseOk b c.strings) :
    ∃ b', BaseOk b' (known x c).strings ∧ (known x c).symstack = ts ++ [b'] := by
  unfold known
  split
  · exact stacks_addGlobal hc hb
  · exact ⟨b, hb, hc⟩

theorem stacks_addParam {x : Bytes} {c : CS} {t : Syms} {ts : List Syms} (hc : c.symstack = t :: ts) : ∃ t', (addParam c x).symstack = t' :: ts := by
  unfold addParam
  split
  · exact ⟨t, hc⟩
  · refine ⟨FMap.set t x ⟨t.length, false, 0⟩, ?_⟩
    show onTop _ c.symstack = _
    rw [hc]
    rfl

theorem stacks_params (ps : List Bytes) : ∀ {c : CS} {t : Syms} {ts : List Syms}, c.symstack = t :: ts → ∃ t', (ps.foldl addParam c).symstack = t' :: ts := by
  induction ps with
  | nil => exact fun h => ⟨_, h⟩
  | cons p ps ih =>
    intro c t ts h
    obtain ⟨t', h'⟩ := stacks_addParam (x := p) h
    exact ih h'

theorem stacks_scope {c : CS} (hc : c.symstack ≠ []) : ∃ t, (scope c).symstack = t :: c.symstack := by
  unfold scope
  split
  · exact stacks_addParam (c := { c with symstack := [] :: c.symstack }) rfl
  · exact ⟨_, rfl⟩

/-- A body in a new table leaves only global symbols behind. -/
theorem stacks_body {ds : List Bytes} {x : C} (hx : Stacks ds x) {c c0 : CS} {o : Out} {t : Syms} (h : bodyC x c = some o) (ht : c.symstack = t :: c0.symstack)
    (hs : c.strings = c0.strings) {ts : List Syms} {b : Syms} (hc : c0.symstack = ts ++ [b]) (hb : BaseOk b c0.strings) :
    ∃ b', BaseOk b' o.cs.strings ∧ o.cs.symstack = ts ++ [b'] := by
  obtain ⟨u, h1, rfl⟩ := body_some h
  obtain ⟨b', hb', e⟩ := hx _ _ h1 (t :: ts) b (by rw [ht, hc]; rfl) (hs ▸ hb)
  refine ⟨b', hb', ?_⟩
  show u.cs.symstack.tail = _
  rw [e]
  rfl

theorem stacks_chunk {ds ps : List Bytes} {sym : Option (Bytes × Nat)} {x : C} (hx : Stacks ds x) : Stacks [] (chunkC sym (fun cs => ps.foldl addParam (scope cs)) x) := by
  intro c o h ts b hc hb
  obtain ⟨u, h1, rfl⟩ := chunk_some h
  have hne : c.symstack ≠ [] := by rw [hc]; simp
  obtain ⟨t, ht⟩ := stacks_scope (c := { c with labels := c.labels + 1 }) hne
  obtain ⟨t', ht'⟩ := stacks_params ps ht
  obtain ⟨b', hb', e⟩ := stacks_body (c0 := c) hx h1 ht' (by rw [params_strings, scope_strings]) hc hb
  refine ⟨b', hb', ?_⟩
  show u.cs.symstack = _
  rw [e]
  cases ts <;> rfl

theorem Stacks.labels {ds : List Bytes} {n : Nat} {k : Nat → C} (h : ∀ l, Stacks ds (k l)) : Stacks ds (withLabels n k) :=
  fun c o e => h c.labels { c with labels := c.labels + n } o e

theorem comp_stacks (a : Ast) : ∀ m, Stacks (decls a) (comp a m) := by
  induction a with
  | nil => exact fun _ => stacks_put _
  | num t => exact fun _ => stacks_put _
  | str s => exact fun _ => stacks_str _ _
  | bin o a b iha ihb => exact fun _ => ((iha _).seq (ihb _)).seq0 (stacks_put _)
  | un o a iha => exact fun _ => (iha _).seq0 (stacks_put _)
  | lam ps b ih =>
    intro m c o h
    exact (stacks_put _).seq (stacks_chunk (ih _)) c o h
  | tnew => exact fun _ => stacks_put _
  | tset t k v iht ihv => exact fun _ => ((((iht _).seq0 (stacks_put _)).seq0 (stacks_key k)).seq (ihv _)).seq0 (stacks_put _)
  | id x =>
    intro m c o h ts b hc hb
    cases h
    obtain ⟨b', hb', e⟩ := stacks_known (x := x) hc hb
    refine ⟨b', hb', ?_⟩
    show (known x c).symstack = _
    rw [e]
    cases ts <;> rfl
  | field r s ih => exact fun _ => ((ih _).seq0 (stacks_str _ _)).seq0 (stacks_put _)
  | index r e ihr ihe => exact fun _ => (((ihr _).seq0 (stacks_put _)).seq (ihe _)).seq0 (stacks_put _)
  | call r as ihr ihs => exact fun _ => (((stacks_put _).seq (ihr _)).seq (ihs _)).seq0 (stacks_put _)
  | noArg => exact fun _ => stacks_put _
  | arg as a ih1 ih2 => exact fun _ => (ih1 _).seq (ih2 _)
  | decl x =>
    intro m c o h ts b hc hb
    simp only [comp] at h
    split at h
    · cases h
    · split at h
      · rename_i hl
        cases h
        obtain ⟨b', hb', e⟩ := stacks_addGlobal (x := x) hc hb
        refine ⟨b', hb', ?_⟩
        cases ts with
        | nil => exact e
        | cons t ts => rw [hc] at hl; simp at hl
      · rename_i hl
        cases h
        refine ⟨b, hb, ?_⟩
        show onTop _ c.symstack = _
        rw [hc]
        cases ts with
        | nil => rw [hc] at hl; simp at hl
        | cons t ts => rfl
  | init x e ih =>
    intro m c o h ts b hc hb
    simp only [comp] at h
    split at h
    · cases h
    · split at h
      · rename_i hl
        obtain ⟨b', hb', e1⟩ := stacks_addGlobal (x := x) hc hb
        obtain ⟨b2, hb2, e2⟩ := ((stacks_put _).seq (ih _)).seq0 (stacks_put _) _ _ h ts b' e1 hb'
        refine ⟨b2, hb2, ?_⟩
        rw [e2]
        cases ts with
        | nil => rfl
        | cons t ts => rw [hc] at hl; simp at hl
      · rename_i hl
        cases ts with
        | nil => rw [hc] at hl; simp at hl
        | cons t ts =>
          obtain ⟨b2, hb2, e2⟩ := ((stacks_put _).seq (ih _)).seq0 (stacks_put _) (addLocal x c) _ h (FMap.set t x ⟨t.length, false, 0⟩ :: ts) b
            (by show onTop _ c.symstack = _; rw [hc]; rfl) hb
          exact ⟨b2, hb2, by rw [e2]; rfl⟩
  | assign r e ihr ihe =>
    intro m c o h
    exact ((ihr _).seq (ihe _)).seq0 (stacks_put _) c o h
  | run r ih => exact fun _ => (ih _).seq0 (stacks_put _)
  | func f ps b ih =>
    intro m c o h ts b hc hb
    simp only [comp] at h
    split at h
    · cases h
    · obtain ⟨b', hb', e⟩ := stacks_known (x := f) hc hb
      exact stacks_chunk (ih _) _ _ h ts b' e hb'
  | ifs c a ihc iha => exact fun _ => Stacks.labels fun _ => (((ihc _).seq0 (stacks_put _)).seq (iha _)).seq0 (stacks_put _)
  | ite c a b ihc iha ihb =>
    exact fun _ => Stacks.labels fun _ => (((((ihc _).seq0 (stacks_put _)).seq (iha _)).seq0 (stacks_put _)).seq (ihb _)).seq0 (stacks_put _)
  | while_ c a ihc iha => exact fun _ => Stacks.labels fun _ => ((((stacks_put _).seq (ihc _)).seq0 (stacks_put _)).seq (iha _)).seq0 (stacks_put _)
  | for_ i c u a ihi ihc ihu iha =>
    exact fun _ => Stacks.labels fun _ => (((((((ihi _).seq0 (stacks_put _)).seq (ihc _)).seq0 (stacks_put _)).seq (ihu _)).seq0 (stacks_put _)).seq (iha _)).seq0 (stacks_put _)
  | ret0 => exact fun _ => stacks_put _
  | ret e ih => exact fun _ => (ih _).seq0 (stacks_put _)
  | block b ih =>
    intro m c o h ts b hc hb
    obtain ⟨b', hb', e⟩ := stacks_body (c0 := c) (ih _) h rfl rfl hc hb
    refine ⟨b', hb', ?_⟩
    rw [e]
    cases ts <;> rfl
  | skip => exact fun _ => stacks_put _
  | seq s l ih1 ih2 => exact fun _ => (ih1 _).seq (ih2 _)

/-! ### The tables follow the scope -/

/-- Compiling adds the variables `ds` to those in scope. -/
def Tabbed (ds : List Bytes) (x : C) : Prop := ∀ c o sh, x c = some o → Tabs c sh → Tabs o.cs (sh.ext ds)

theorem Tabbed.seq {ds es : List Bytes} {x y : C} (hx : Tabbed ds x) (hy : Tabbed es y) : Tabbed (ds ++ es) (x ⊹ y) := by
  intro c o sh h ht
  obtain ⟨u, v, h1, h2, rfl⟩ := seq_some h
  have := hy _ _ _ h2 (hx _ _ _ h1 ht)
  rwa [Shape.ext_ext] at this

theorem Tabbed.seq0 {ds : List Bytes} {x y : C} (hx : Tabbed ds x) (hy : Tabbed [] y) : Tabbed ds (x ⊹ y) := by
  have := hx.seq hy
  rwa [List.append_nil] at this

/-- The tables have a base. -/
theorem Tabs.split {c : CS} {sh : Shape} (h : Tabs c sh) : ∃ ts b, c.symstack = ts ++ [b] ∧ BaseOk b c.strings := by
  cases sh with
  | top =>
    obtain ⟨b, h1, h2⟩ := h
    exact ⟨[], b, h1, h2⟩
  | inner xs =>
    obtain ⟨⟨ts, b, h1, _, h2⟩, _⟩ := h
    exact ⟨_ :: ts, b, h1, h2⟩
  | fn xs =>
    obtain ⟨⟨ts, b, h1, _, h2⟩, _⟩ := h
    exact ⟨_ :: ts, b, h1, h2⟩

theorem Loc.rebase {ss ss' : List Syms} {xs : List Bytes} {strs strs' : List (Bytes × Nat)} {ts : List Syms} {b b' : Syms} (h : Loc ss xs strs)
    (e : ss = ts ++ [b]) (e' : ss' = ts ++ [b']) (hb : BaseOk b' strs') : Loc ss' xs strs' := by
  obtain ⟨⟨us, d, h1, h2, h3⟩, h4⟩ := h
  refine ⟨⟨us, b', ?_, h2, hb⟩, h4⟩
  rw [e] at h1
  have h5 : ts ++ [b] = (table xs :: us) ++ [d] := h1
  obtain ⟨h6, _⟩ := List.append_inj' h5 rfl
  rw [e', h6]
  rfl

theorem Tabs.rebase {c c' : CS} {sh : Shape} {ts : List Syms} {b b' : Syms} (h : Tabs c sh) (e : c.symstack = ts ++ [b]) (e' : c'.symstack = ts ++ [b'])
    (hb : BaseOk b' c'.strings) : Tabs c' sh := by
  cases sh with
  | top =>
    obtain ⟨d, h1, h2⟩ := h
    rw [e] at h1
    have h5 : ts ++ [b] = [] ++ [d] := h1
    obtain ⟨h6, _⟩ := List.append_inj' h5 rfl
    exact ⟨b', by rw [e', h6]; rfl, hb⟩
  | inner xs => exact Loc.rebase h e e' hb
  | fn xs => exact Loc.rebase h e e' hb

theorem Stacks.tabbed {x : C} (h : Stacks [] x) : Tabbed [] x := by
  intro c o sh hx ht
  obtain ⟨ts, b, h1, h2⟩ := ht.split
  obtain ⟨b', h3, h4⟩ := h c o hx ts b h1 h2
  rw [Shape.ext_nil]
  refine ht.rebase h1 (ts := ts) (b' := b') ?_ h3
  rw [h4]
  cases ts <;> rfl

theorem isLocal_in {ss : List Syms} {xs : List Bytes} {strs : List (Bytes × Nat)} {l : Nat} {x : Bytes} (h : Loc ss xs strs) (hx : isLocal x ⟨l, ss, strs⟩ = false) : x ∉ xs := by
  intro hm
  obtain ⟨i, hi⟩ := List.mem_iff_getElem?.mp hm
  have := h.lookup_in hi
  unfold isLocal at hx
  simp only [this] at hx
  cases hx

theorem isLocal_out {ss : List Syms} {xs : List Bytes} {strs : List (Bytes × Nat)} {l : Nat} {x : Bytes} (h : Loc ss xs strs) (hx : x ∉ xs) : isLocal x ⟨l, ss, strs⟩ = false := by
  obtain ⟨b, hb, e⟩ := h.lookup_out hx
  unfold isLocal
  simp only [e]
  cases hg : FMap.get b x with
  | none => rfl
  | some s =>
    have := (hb _ (FMap.mem_of_get hg)).1
    simp only at this
    simp [this]

/-- A local variable is added. -/
theorem Loc.add {ss : List Syms} {xs : List Bytes} {strs : List (Bytes × Nat)} (h : Loc ss xs strs) {x : Bytes} (hx : x ∉ xs) :
    Loc (onTop (fun t => FMap.set t x ⟨t.length, false, 0⟩) ss) (xs ++ [x]) strs := by
  obtain ⟨⟨ts, b, rfl, h1, h2⟩, h3⟩ := h
  refine ⟨⟨ts, b, ?_, fun t ht e he => List.mem_append_left _ (h1 t ht e he), h2⟩, ?_⟩
  · show FMap.set (table xs) x ⟨(table xs).length, false, 0⟩ :: _ = _
    rw [set_table hx]
  · rw [List.nodup_append]
    refine ⟨h3, by simp, ?_⟩
    intro a ha b hb hab
    rw [List.mem_singleton] at hb
    exact hx (hb ▸ hab ▸ ha)

theorem Loc.length {ss : List Syms} {xs : List Bytes} {strs : List (Bytes × Nat)} (h : Loc ss xs strs) : ss.length ≠ 1 := by
  obtain ⟨ts, b, rfl, _⟩ := h.split
  simp

theorem Loc.top {c : CS} {xs : List Bytes} (h : Loc c.symstack xs c.strings) : c.top = table xs := by
  obtain ⟨ts, b, e, _⟩ := h.split
  unfold CS.top
  rw [e]
  rfl

theorem tabbed_addLocal {x : Bytes} {c : CS} {sh : Shape} (ht : Tabs c sh) (hl : c.symstack.length ≠ 1) (hx : isLocal x c = false) : Tabs (addLocal x c) (sh.ext [x]) := by
  cases sh with
  | top =>
    obtain ⟨b, h1, _⟩ := ht
    rw [h1] at hl
    simp at hl
  | inner xs => exact Loc.add ht (isLocal_in (l := c.labels) ht hx)
  | fn xs => exact Loc.add ht (isLocal_in (l := c.labels) ht hx)

theorem tabs_addGlobal {x : Bytes} {c : CS} {sh : Shape} (ht : Tabs c sh) : Tabs (addGlobal x c) sh := by
  obtain ⟨ts, b, h1, h2⟩ := ht.split
  obtain ⟨b', h3, h4⟩ := stacks_addGlobal (x := x) h1 h2
  exact ht.rebase h1 h4 h3

theorem tabs_known {x : Bytes} {c : CS} {sh : Shape} (ht : Tabs c sh) : Tabs (known x c) sh := by
  unfold known
  split
  · exact tabs_addGlobal ht
  · exact ht

theorem tabs_top {c : CS} {sh : Shape} (ht : Tabs c sh) (hl : c.symstack.length = 1) : sh = .top := by
  cases sh with
  | top => rfl
  | inner xs => exact absurd hl (Loc.length ht)
  | fn xs => exact absurd hl (Loc.length ht)

theorem Tabbed.labels {ds : List Bytes} {n : Nat} {k : Nat → C} (h : ∀ l, Tabbed ds (k l)) : Tabbed ds (withLabels n k) :=
  fun c o sh e ht => h c.labels { c with labels := c.labels + n } o sh e (by cases sh <;> exact ht)

/-- **Compiling a phrase adds exactly the variables it declares to those in scope, in the order of their slots.** -/
theorem comp_tabs (a : Ast) : ∀ m, Tabbed (decls a) (comp a m) := by
  have tp : ∀ l, Tabbed [] (put l) := fun l => (stacks_put l).tabbed
  induction a with
  | nil => exact fun m => (comp_stacks .nil m).tabbed
  | num t => exact fun m => (comp_stacks (.num t) m).tabbed
  | str s => exact fun m => (comp_stacks (.str s) m).tabbed
  | bin o a b iha ihb => exact fun _ => ((iha _).seq (ihb _)).seq0 (tp _)
  | un o a iha => exact fun _ => (iha _).seq0 (tp _)
  | lam ps b ih => exact fun m => (comp_stacks (.lam ps b) m).tabbed
  | tnew => exact fun m => (comp_stacks .tnew m).tabbed
  | tset t k v iht ihv => exact fun _ => ((((iht _).seq0 (tp _)).seq0 (stacks_key k).tabbed).seq (ihv _)).seq0 (tp _)
  | id x => exact fun m => (comp_stacks (.id x) m).tabbed
  | field r s ih => exact fun _ => ((ih _).seq0 (stacks_str _ _).tabbed).seq0 (tp _)
  | index r e ihr ihe => exact fun _ => (((ihr _).seq0 (tp _)).seq (ihe _)).seq0 (tp _)
  | call r as ihr ihs => exact fun _ => (((tp _).seq (ihr _)).seq (ihs _)).seq0 (tp _)
  | noArg => exact fun m => (comp_stacks .noArg m).tabbed
  | arg as a ih1 ih2 => exact fun _ => (ih1 _).seq (ih2 _)
  | decl x =>
    intro m c o sh h ht
    simp only [comp] at h
    split at h
    · cases h
    · rename_i hloc
      split at h
      · rename_i hl
        cases h
        obtain rfl := tabs_top ht hl
        exact tabs_addGlobal ht
      · rename_i hl
        cases h
        exact tabbed_addLocal ht hl (by simpa using hloc)
  | init x e ih =>
    intro m c o sh h ht
    simp only [comp] at h
    split at h
    · cases h
    · rename_i hloc
      split at h
      · rename_i hl
        obtain rfl := tabs_top ht hl
        exact (((tp _).seq (ih _)).seq0 (tp _)) _ _ .top h (tabs_addGlobal ht)
      · rename_i hl
        have := (((tp _).seq (ih _)).seq0 (tp _)) _ _ _ h (tabbed_addLocal ht hl (by simpa using hloc))
        rwa [Shape.ext_ext] at this
  | assign r e ihr ihe =>
    intro m c o sh h
    exact ((ihr _).seq (ihe _)).seq0 (tp _) c o sh h
  | run r ih => exact fun _ => (ih _).seq0 (tp _)
  | func f ps b ih => exact fun m => (comp_stacks (.func f ps b) m).tabbed
  | ifs c a ihc iha => exact fun _ => Tabbed.labels fun _ => (((ihc _).seq0 (tp _)).seq (iha _)).seq0 (tp _)
  | ite c a b ihc iha ihb =>
    exact fun _ => Tabbed.labels fun _ => (((((ihc _).seq0 (tp _)).seq (iha _)).seq0 (tp _)).seq (ihb _)).seq0 (tp _)
  | while_ c a ihc iha => exact fun _ => Tabbed.labels fun _ => ((((tp _).seq (ihc _)).seq0 (tp _)).seq (iha _)).seq0 (tp _)
  | for_ i c u a ihi ihc ihu iha =>
    exact fun _ => Tabbed.labels fun _ => (((((((ihi _).seq0 (tp _)).seq (ihc _)).seq0 (tp _)).seq (ihu _)).seq0 (tp _)).seq (iha _)).seq0 (tp _)
  | ret0 => exact fun m => (comp_stacks .ret0 m).tabbed
  | ret e ih => exact fun _ => (ih _).seq0 (tp _)
  | block b ih => exact fun m => (comp_stacks (.block b) m).tabbed
  | skip => exact fun m => (comp_stacks .skip m).tabbed
  | seq s l ih1 ih2 => exact fun _ => (ih1 _).seq (ih2 _)

/-! ### New scopes -/

/-- Parameters with new names get the next slots. -/
theorem loc_params (ps : List Bytes) : ∀ {c : CS} {xs : List Bytes}, Loc c.symstack xs c.strings → (xs ++ ps).Nodup →
    Loc (ps.foldl addParam c).symstack (xs ++ ps) (ps.foldl addParam c).strings := by
  induction ps with
  | nil =>
    intro c xs h _
    rw [List.append_nil]
    exact h
  | cons p ps ih =>
    intro c xs h hn
    have hp : p ∉ xs := by
      intro hm
      rw [List.nodup_append] at hn
      exact hn.2.2 p hm p (List.mem_cons_self ..) rfl
    have e : addParam c p = addLocal p c := by
      unfold addParam
      rw [isLocal_out (l := c.labels) h hp]
      rfl
    rw [List.foldl_cons, e]
    have := ih (c := addLocal p c) (xs := xs ++ [p]) (h.add hp) (by simpa using hn)
    rwa [List.append_assoc] at this

/-- The scope of a function made outside functions. -/
theorem loc_scope_top {c : CS} (h : Tabs c .top) : Loc (scope c).symstack [selfName] (scope c).strings := by
  obtain ⟨b, h1, h2⟩ := h
  have h0 : Loc ([] :: c.symstack) [] c.strings := ⟨⟨[], b, by rw [h1]; rfl, by simp, h2⟩, List.nodup_nil⟩
  unfold scope
  rw [if_pos (by rw [h1]; rfl)]
  have e : addParam { c with symstack := [] :: c.symstack } selfName = addLocal selfName { c with symstack := [] :: c.symstack } := by
    unfold addParam
    rw [isLocal_out (l := c.labels) h0 (by simp)]
    rfl
  rw [e]
  exact h0.add (by simp)

/-- The scope of a function made in a function, and of a block. -/
theorem loc_copy {ss : List Syms} {xs : List Bytes} {strs : List (Bytes × Nat)} (h : Loc ss xs strs) : Loc (ss.headD [] :: ss) xs strs := by
  obtain ⟨⟨ts, b, rfl, h1, h2⟩, h3⟩ := h
  refine ⟨⟨table xs :: ts, b, rfl, ?_, h2⟩, h3⟩
  intro t ht e he
  rcases List.mem_cons.mp ht with rfl | ht
  · have : e.1 ∈ (table xs).map (·.1) := List.mem_map_of_mem he
    rwa [table_names] at this
  · exact h1 t ht e he

theorem loc_scope {c : CS} {xs : List Bytes} (h : Loc c.symstack xs c.strings) : Loc (scope c).symstack xs (scope c).strings := by
  unfold scope
  rw [if_neg h.length]
  exact loc_copy h

end Buzz.Comp
