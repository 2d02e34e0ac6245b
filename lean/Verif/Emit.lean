import Verif.CompTabs

/-
The lines that compilation emits: which instructions and arguments they have, and their labels.
-/
namespace Buzz.Comp

open Buzz.Msg Buzz.Lex Buzz.VM Buzz.Parser Buzz.Lang

/-- All lines of an outcome. -/
def lines (o : Out) : List Ln := o.code ++ o.news.flatMap (·.code)

/-- The size of a phrase: an upper bound for the variables and arguments in it. -/
def weight : Ast → Nat
  | .bin _ a b => weight a + weight b
  | .un _ a => weight a
  | .lam ps b => ps.length + 1 + weight b
  | .tset t _ e => weight t + weight e
  | .field r _ => weight r
  | .index r e => weight r + weight e
  | .call f as => weight f + weight as
  | .arg as a => weight as + weight a + 1
  | .id _ => 1
  | .decl _ => 1
  | .init _ e => 1 + weight e
  | .assign r e => weight r + weight e
  | .run r => weight r
  | .func _ ps b => 1 + (ps.length + 1 + weight b)
  | .ifs c a => weight c + weight a
  | .ite c a b => weight c + weight a + weight b
  | .while_ c a => weight c + weight a
  | .for_ i c u a => weight i + weight c + weight u + weight a
  | .ret e => weight e
  | .block b => weight b
  | .seq s l => weight s + weight l
  | _ => 0

/-- The numeric constants of a phrase. -/
def consts : Ast → List Bytes
  | .num t => [t]
  | .bin _ a b => consts a ++ consts b
  | .un _ a => consts a
  | .lam _ b => consts b
  | .tset t k e => consts t ++ (match k with | .num t => [t] | .name _ => []) ++ consts e
  | .field r _ => consts r
  | .index r e => consts r ++ consts e
  | .call f as => consts f ++ consts as
  | .arg as a => consts as ++ consts a
  | .init _ e => consts e
  | .assign r e => consts r ++ consts e
  | .run r => consts r
  | .func _ _ b => consts b
  | .ifs c a => consts c ++ consts a
  | .ite c a b => consts c ++ consts a ++ consts b
  | .while_ c a => consts c ++ consts a
  | .for_ i c u a => consts i ++ consts c ++ consts u ++ consts a
  | .ret e => consts e
  | .block b => consts b
  | .seq s l => consts s ++ consts l
  | _ => []

/-- What a line can be. -/
def Fine (B : Nat) (ts : List Bytes) : Ln → Prop
  | .lab _ => True
  | .exit => False
  | .op i => i < 35
  | .num i v => (36 ≤ i ∧ i ≤ 43) ∧ 0 ≤ v ∧ v ≤ B
  | .txt i t => t ∈ ts ∧ (46 ∈ t ∧ i = 35 ∨ 46 ∉ t ∧ i = 36)
  | .ref i _ => 36 ≤ i ∧ i < 47

theorem Fine.mono {B B' : Nat} {ts ts' : List Bytes} {l : Ln} (h : Fine B ts l) (hB : B ≤ B') (ht : ∀ t ∈ ts, t ∈ ts') : Fine B' ts' l := by
  cases l with
  | num i v => exact ⟨h.1, h.2.1, h.2.2.trans (by omega)⟩
  | txt i t => exact ⟨ht t h.1, h.2⟩
  | _ => exact h

/-- The numbers in a table are at most `B`. -/
def TabLe (B : Nat) (t : Syms) : Prop := t.length ≤ B ∧ ∀ e ∈ t, e.2.pos ≤ B

/-- The numbers in the compiler's tables are at most `B`. -/
structure Bound (B : Nat) (c : CS) : Prop where
  big : 65535 ≤ B
  strs : ∀ e ∈ c.strings, e.2 ≤ 65535
  tabs : ∀ t ∈ c.symstack, TabLe B t

theorem TabLe.mono {B B' : Nat} {t : Syms} (h : TabLe B t) (hB : B ≤ B') : TabLe B' t := ⟨h.1.trans hB, fun e he => (h.2 e he).trans hB⟩

theorem Bound.mono {B B' : Nat} {c : CS} (h : Bound B c) (hB : B ≤ B') : Bound B' c := ⟨h.big.trans hB, h.strs, fun t ht => (h.tabs t ht).mono hB⟩

/-- What a piece of compilation emits. -/
def Emits (w : Nat) (ts : List Bytes) (x : C) : Prop := ∀ B c o, Bound B c → x c = some o → Bound (B + w) o.cs ∧ ∀ l ∈ lines o, Fine (B + w) ts l

theorem lines_seq (a b : Out) (cs : CS) (l : Ln) : l ∈ lines ⟨a.code ++ b.code, a.news ++ b.news, cs⟩ ↔ l ∈ lines a ∨ l ∈ lines b := by
  simp only [lines, List.flatMap_append, List.mem_append]
  tauto

theorem Emits.seq {w v : Nat} {ts us : List Bytes} {x y : C} (hx : Emits w ts x) (hy : Emits v us y) : Emits (w + v) (ts ++ us) (x ⊹ y) := by
  intro B c o hb h
  obtain ⟨a, b, h1, h2, rfl⟩ := seq_some h
  obtain ⟨ha, la⟩ := hx B c a hb h1
  obtain ⟨hb', lb⟩ := hy _ _ b ha h2
  rw [← Nat.add_assoc]
  refine ⟨hb', fun l hl => ?_⟩
  rcases (lines_seq a b _ l).mp hl with hl | hl
  · exact (la l hl).mono (by omega) (fun t ht => List.mem_append_left _ ht)
  · exact (lb l hl).mono (Nat.le_refl _) (fun t ht => List.mem_append_right _ ht)

theorem Emits.weaken {w v : Nat} {ts us : List Bytes} {x : C} (hx : Emits w ts x) (h : w ≤ v) (ht : ∀ t ∈ ts, t ∈ us) : Emits v us x := by
  intro B c o hb hc
  obtain ⟨h1, h2⟩ := hx B c o hb hc
  exact ⟨h1.mono (by omega), fun l hl => (h2 l hl).mono (by omega) ht⟩

theorem emits_put {w : Nat} {ts : List Bytes} {l : List Ln} (h : ∀ x ∈ l, Fine w ts x) : Emits w ts (put l) := by
  intro B c o hb e
  cases e
  refine ⟨hb.mono (by omega), fun x hx => ?_⟩
  simp only [lines, List.flatMap_nil, List.append_nil] at hx
  exact (h x hx).mono (by omega) fun _ h => h

theorem strs_add {c : List (Bytes × Nat)} (h : ∀ e ∈ c, e.2 ≤ 65535) (s : Bytes) : (∀ e ∈ (stringAdd c s).1, e.2 ≤ 65535) ∧ (stringAdd c s).2 ≤ 65535 := by
  unfold stringAdd
  cases hs : FMap.get c s with
  | some j => exact ⟨h, h (s, j) (FMap.mem_of_get hs)⟩
  | none =>
    refine ⟨fun e he => ?_, ?_⟩
    · rw [FMap.mem_set] at he
      rcases he with he | rfl
      · exact h e he.1
      · show _ % _ ≤ _
        omega
    · show _ % _ ≤ _
      omega

theorem emits_str {w : Nat} {ts : List Bytes} {s : Bytes} {k : Nat → List Ln} (h : ∀ i ≤ 65535, ∀ x ∈ k i, Fine 65535 ts x) : Emits w ts (withStr s k) := by
  intro B c o hb e
  cases e
  refine ⟨⟨by have := hb.big; omega, (strs_add hb.strs s).1, fun t ht => (hb.tabs t ht).mono (by omega)⟩, fun x hx => ?_⟩
  simp only [lines, List.flatMap_nil, List.append_nil] at hx
  exact (h _ (strs_add hb.strs s).2 x hx).mono (by have := hb.big; omega) fun _ h => h

theorem tabLe_set {B : Nat} {t : Syms} (h : TabLe B t) (x : Bytes) (s : Sym) (hs : s.pos ≤ B + 1) : TabLe (B + 1) (FMap.set t x s) := by
  refine ⟨?_, fun e he => ?_⟩
  · unfold FMap.set
    rw [List.length_append]
    exact Nat.succ_le_succ ((List.length_filter_le _ _).trans h.1)
  · rw [FMap.mem_set] at he
    rcases he with he | rfl
    · exact (h.2 e he.1).trans (by omega)
    · exact hs

theorem mem_onBase {f : Syms → Syms} {t : Syms} : ∀ {ss : List Syms}, t ∈ onBase f ss → t ∈ ss ∨ ∃ u ∈ ss, t = f u
  | [], h => by cases h
  | [u], h => by
    right
    refine ⟨u, List.mem_singleton.mpr rfl, ?_⟩
    exact List.mem_singleton.mp h
  | u :: v :: ss, h => by
    have h : t ∈ u :: onBase f (v :: ss) := h
    rcases List.mem_cons.mp h with rfl | h
    · exact .inl (List.mem_cons_self ..)
    · rcases mem_onBase h with h | ⟨w, hw, rfl⟩
      · exact .inl (List.mem_cons_of_mem _ h)
      · exact .inr ⟨w, List.mem_cons_of_mem _ hw, rfl⟩

theorem bound_addGlobal {B : Nat} {c : CS} (h : Bound B c) (x : Bytes) : Bound (B + 1) (addGlobal x c) := by
  have hb := h.big
  refine ⟨by omega, (strs_add h.strs x).1, fun t ht => ?_⟩
  rcases mem_onBase ht with ht | ⟨u, hu, rfl⟩
  · exact (h.tabs t ht).mono (by omega)
  · unfold setGlobal
    refine tabLe_set (h.tabs u hu) _ _ ?_
    have := (strs_add h.strs x).2
    show (stringAdd c.strings x).2 ≤ _
    omega

theorem bound_addLocal {B : Nat} {c : CS} (h : Bound B c) (x : Bytes) : Bound (B + 1) (addLocal x c) := by
  refine ⟨by have := h.big; omega, h.strs, fun t ht => ?_⟩
  have ht : t ∈ onTop _ c.symstack := ht
  cases hs : c.symstack with
  | nil => rw [hs] at ht; cases ht
  | cons u us =>
    rw [hs] at ht
    rcases List.mem_cons.mp ht with rfl | ht
    · have hu := h.tabs u (by rw [hs]; exact List.mem_cons_self ..)
      exact tabLe_set hu _ _ (hu.1.trans (by omega))
    · exact (h.tabs t (by rw [hs]; exact List.mem_cons_of_mem _ ht)).mono (by omega)

theorem bound_known {B : Nat} {c : CS} (h : Bound B c) (x : Bytes) : Bound (B + 1) (known x c) := by
  unfold known
  split
  · exact bound_addGlobal h x
  · exact h.mono (by omega)

theorem lookup_mem {x : Bytes} {s : Sym} : ∀ {ss : List Syms}, lookup x ss = some s → ∃ t ∈ ss, (x, s) ∈ t
  | t :: ss, h => by
    have h : (match FMap.get t x with | some s => some s | none => lookup x ss) = some s := h
    cases hg : FMap.get t x with
    | some s' =>
      rw [hg] at h
      cases h
      exact ⟨t, List.mem_cons_self .., FMap.mem_of_get hg⟩
    | none =>
      rw [hg] at h
      obtain ⟨u, hu, hm⟩ := lookup_mem h
      exact ⟨u, List.mem_cons_of_mem _ hu, hm⟩

theorem bound_symOf {B : Nat} {c : CS} (h : Bound B c) (x : Bytes) : (symOf x c).pos ≤ B + 1 := by
  unfold symOf
  cases hl : lookup x (known x c).symstack with
  | none => exact Nat.zero_le _
  | some s =>
    obtain ⟨t, ht, hm⟩ := lookup_mem hl
    exact ((bound_known h x).tabs t ht).2 _ hm

theorem bound_top {B : Nat} {c : CS} (h : Bound B c) : c.top.length ≤ B := by
  unfold CS.top
  cases hs : c.symstack with
  | nil => exact Nat.zero_le _
  | cons t ts => exact (h.tabs t (by rw [hs]; exact List.mem_cons_self ..)).1

theorem bound_addParam {B : Nat} {c : CS} (h : Bound B c) (x : Bytes) : Bound (B + 1) (addParam c x) := by
  unfold addParam
  split
  · exact h.mono (by omega)
  · exact bound_addLocal h x

theorem bound_params (ps : List Bytes) : ∀ {B : Nat} {c : CS}, Bound B c → Bound (B + ps.length) (ps.foldl addParam c) := by
  induction ps with
  | nil => exact fun h => h
  | cons p ps ih =>
    intro B c h
    have := ih (bound_addParam h p)
    rw [List.length_cons]
    exact this.mono (by omega)

theorem tabLe_headD {B : Nat} {c : CS} (h : Bound B c) : TabLe B (c.symstack.headD []) := by
  cases hs : c.symstack with
  | nil => exact ⟨Nat.zero_le _, fun e he => by cases he⟩
  | cons t ts => exact h.tabs t (by rw [hs]; exact List.mem_cons_self ..)

theorem bound_push {B : Nat} {c : CS} (h : Bound B c) {t : Syms} (ht : TabLe B t) : Bound B { c with symstack := t :: c.symstack } :=
  ⟨h.big, h.strs, fun u hu => by
    rcases List.mem_cons.mp hu with rfl | hu
    · exact ht
    · exact h.tabs u hu⟩

theorem bound_scope {B : Nat} {c : CS} (h : Bound B c) : Bound (B + 1) (scope c) := by
  unfold scope
  split
  · exact bound_addParam (bound_push h ⟨Nat.zero_le _, fun e he => by cases he⟩) _
  · exact (bound_push h (tabLe_headD h)).mono (by omega)

theorem Emits.body {w : Nat} {ts : List Bytes} {x : C} (hx : Emits w ts x) : Emits w ts (bodyC x) := by
  intro B c o hb h
  obtain ⟨b, h1, rfl⟩ := body_some h
  obtain ⟨h2, h3⟩ := hx B c b hb h1
  refine ⟨⟨h2.big, h2.strs, fun t ht => h2.tabs t (List.mem_of_mem_tail ht)⟩, fun l hl => ?_⟩
  have hl : l ∈ (b.code ++ (if b.cs.top.length - c.top.length ≠ 0 then [Ln.num 43 ((b.cs.top.length - c.top.length : Nat) : Int)] else [])) ++ b.news.flatMap (·.code) := hl
  have hm : ∀ l, l ∈ b.code ∨ l ∈ b.news.flatMap (·.code) → l ∈ lines b := fun l h => List.mem_append.mpr h
  rcases List.mem_append.mp hl with hl | hl
  · rcases List.mem_append.mp hl with hl | hl
    · exact h3 l (hm l (.inl hl))
    · split at hl
      · rw [List.mem_singleton] at hl
        subst hl
        have := bound_top h2
        refine ⟨by decide, by omega, ?_⟩
        have : b.cs.top.length - c.top.length ≤ B + w := by omega
        exact_mod_cast this
      · cases hl
  · exact h3 l (hm l (.inr hl))

theorem Emits.chunk {w : Nat} {ts : List Bytes} {sym : Option (Bytes × Nat)} {ps : List Bytes} {x : C} (hx : Emits w ts x) :
    Emits (ps.length + 1 + w) ts (chunkC sym (fun cs => ps.foldl addParam (scope cs)) x) := by
  intro B c o hb h
  obtain ⟨b, h1, rfl⟩ := chunk_some h
  have h0 : Bound (B + 1 + ps.length) (ps.foldl addParam (scope { c with labels := c.labels + 1 })) :=
    bound_params ps (bound_scope ⟨hb.big, hb.strs, hb.tabs⟩)
  obtain ⟨h2, h3⟩ := hx.body _ _ b h0 h1
  have e : B + (ps.length + 1 + w) = B + 1 + ps.length + w := by omega
  rw [e]
  refine ⟨h2, fun l hl => ?_⟩
  have hl : l ∈ b.code ++ [Ln.op 5] ++ b.news.flatMap (·.code) := hl
  rcases List.mem_append.mp hl with hl | hl
  · rcases List.mem_append.mp hl with hl | hl
    · exact h3 l (List.mem_append_left _ hl)
    · rw [List.mem_singleton] at hl
      subst hl
      show 5 < 35
      omega
  · exact h3 l (List.mem_append_right _ hl)

theorem emits_const (t : Bytes) : Emits 0 [t] (put [constant [] t]) := by
  refine emits_put fun x hx => ?_
  rw [List.mem_singleton] at hx
  subst hx
  by_cases h : 46 ∈ t
  · simp only [constant, if_pos h]
    exact ⟨List.mem_singleton.mpr rfl, .inl ⟨h, rfl⟩⟩
  · simp only [constant, if_neg h]
    exact ⟨List.mem_singleton.mpr rfl, .inr ⟨h, rfl⟩⟩

theorem fine_num {B i : Nat} {ts : List Bytes} {v : Nat} (hi : 36 ≤ i ∧ i ≤ 43) (hv : v ≤ B) : Fine B ts (.num i v) := ⟨hi, by omega, by exact_mod_cast hv⟩

theorem emits_lit {ts : List Bytes} (s : Bytes) : Emits 0 ts (withStr s (fun i => [.num 37 i])) := by
  refine emits_str fun i hi x hx => ?_
  rw [List.mem_singleton] at hx
  subst hx
  exact fine_num (by decide) hi

theorem emits_key (k : Key) : Emits 0 (match k with | .num t => [t] | .name _ => []) (keyC k) := by
  cases k with
  | name s => exact emits_lit s
  | num t => exact emits_const t

theorem Emits.labels {w : Nat} {ts : List Bytes} {n : Nat} {k : Nat → C} (h : ∀ l, Emits w ts (k l)) : Emits w ts (withLabels n k) :=
  fun B c o hb e => h c.labels B { c with labels := c.labels + n } o ⟨hb.big, hb.strs, hb.tabs⟩ e

theorem emits_op {i : Nat} (hi : i < 35) : Emits 0 [] (put [.op i]) := emits_put fun x hx => by
  rw [List.mem_singleton] at hx
  subst hx
  exact hi

theorem emits_nil : Emits 0 [] (put []) := emits_put fun x hx => by cases hx

theorem Emits.seq0 {w : Nat} {ts : List Bytes} {x y : C} (hx : Emits w ts x) (hy : Emits 0 [] y) : Emits w ts (x ⊹ y) := by
  have := hx.seq hy
  rwa [List.append_nil] at this

theorem Emits.seq1 {w : Nat} {ts : List Bytes} {x y : C} (hx : Emits 0 [] x) (hy : Emits w ts y) : Emits w ts (x ⊹ y) := by
  have := hx.seq hy
  rwa [Nat.zero_add] at this

theorem binOp_lt (o : Bin) : binOp o < 35 := by cases o <;> decide
theorem unOp_lt (o : Un) : unOp o < 35 := by cases o <;> decide

theorem emits_jumps {l : List Ln} (h : ∀ x ∈ l, (∃ i k, x = .ref i k ∧ 36 ≤ i ∧ i < 47) ∨ ∃ k, x = .lab k) : Emits 0 [] (put l) := emits_put fun x hx => by
  rcases h x hx with ⟨i, k, rfl, h1, h2⟩ | ⟨k, rfl⟩
  · exact ⟨h1, h2⟩
  · trivial

theorem fine_loadOps {B : Nat} {ts : List Bytes} {i : Nat} {g b : Bool} (hi : i ≤ B) : ∀ x ∈ loadOps i g b, Fine B ts x := by
  intro x hx
  unfold loadOps at hx
  split at hx
  · rcases List.mem_append.mp hx with hx | hx
    · split at hx
      · rw [List.mem_singleton] at hx
        subst hx
        exact (by decide : 2 < 35)
      · cases hx
    · rcases List.mem_cons.mp hx with rfl | hx
      · exact fine_num (by decide) hi
      · rw [List.mem_singleton] at hx
        subst hx
        exact (by decide : 28 < 35)
  · rw [if_pos (Int.natCast_nonneg i)] at hx
    rcases List.mem_append.mp hx with hx | hx
    · split at hx
      · rw [List.mem_singleton] at hx
        subst hx
        exact (by decide : 2 < 35)
      · cases hx
    · rw [List.mem_singleton] at hx
      subst hx
      exact fine_num (by decide) hi

theorem nargs_le : ∀ a : Ast, nargs a ≤ weight a
  | .arg as a => by have := nargs_le as; show nargs as + 1 ≤ weight as + weight a + 1; omega
  | .nil => Nat.zero_le _
  | .num _ => Nat.zero_le _
  | .str _ => Nat.zero_le _
  | .bin .. => Nat.zero_le _
  | .un .. => Nat.zero_le _
  | .lam .. => Nat.zero_le _
  | .tnew => Nat.zero_le _
  | .tset .. => Nat.zero_le _
  | .id _ => Nat.zero_le _
  | .field .. => Nat.zero_le _
  | .index .. => Nat.zero_le _
  | .call .. => Nat.zero_le _
  | .noArg => Nat.zero_le _
  | .decl _ => Nat.zero_le _
  | .init .. => Nat.zero_le _
  | .assign .. => Nat.zero_le _
  | .run _ => Nat.zero_le _
  | .func .. => Nat.zero_le _
  | .ifs .. => Nat.zero_le _
  | .ite .. => Nat.zero_le _
  | .while_ .. => Nat.zero_le _
  | .for_ .. => Nat.zero_le _
  | .ret0 => Nat.zero_le _
  | .ret _ => Nat.zero_le _
  | .block _ => Nat.zero_le _
  | .skip => Nat.zero_le _
  | .seq .. => Nat.zero_le _

theorem comp_emits (a : Ast) : ∀ m, Emits (weight a) (consts a) (comp a m) := by
  induction a with
  | nil => exact fun _ => emits_op (by decide)
  | num t => exact fun _ => emits_const t
  | str s => exact fun _ => emits_lit s
  | bin o a b iha ihb => exact fun _ => ((iha _).seq (ihb _)).seq0 (emits_op (binOp_lt o))
  | un o a iha => exact fun _ => (iha _).seq0 (emits_op (unOp_lt o))
  | lam ps b ih =>
    intro m B c o hb h
    exact (emits_jumps (l := [.ref 40 c.labels]) (by
      intro x hx
      rw [List.mem_singleton] at hx
      exact .inl ⟨_, _, hx, by decide, by decide⟩)).seq1 ((ih _).chunk (ps := ps)) B c o hb h
  | tnew => exact fun _ => emits_op (by decide)
  | tset t k v iht ihv =>
    exact fun _ => ((((iht _).seq0 (emits_op (by decide))).seq (emits_key k)).seq (ihv _)).seq0 (emits_op (by decide))
  | id x =>
    intro m B c o hb h
    cases h
    refine ⟨bound_known hb x, fun l hl => ?_⟩
    simp only [lines, List.flatMap_nil, List.append_nil] at hl
    cases m with
    | val => exact fine_loadOps (bound_symOf hb x) l hl
    | callee => exact fine_loadOps (bound_symOf hb x) l hl
    | lval =>
      dsimp only at hl
      split at hl
      · rw [List.mem_singleton] at hl
        subst hl
        exact fine_num (by decide) (bound_symOf hb x)
      · cases hl
  | field r s ih =>
    intro m
    refine ((ih _).seq0 (emits_str fun i hi x hx => ?_)).seq0 ?_
    · rcases List.mem_append.mp hx with hx | hx
      · split at hx
        · rw [List.mem_singleton] at hx
          subst hx
          exact (by decide : 3 < 35)
        · cases hx
      · rw [List.mem_singleton] at hx
        subst hx
        exact fine_num (by decide) hi
    · split
      · exact emits_nil
      · exact emits_op (by decide)
  | index r e ihr ihe =>
    intro m
    refine (((ihr _).seq0 ?_).seq (ihe _)).seq0 ?_
    · split
      · exact emits_op (by decide)
      · exact emits_nil
    · split
      · exact emits_nil
      · exact emits_op (by decide)
  | call r as ihr ihs =>
    intro m
    intro B c o hb h
    have h1 : Emits (weight r + weight as) (consts r ++ consts as) (put (if m = .callee then [.op 2] else []) ⊹ comp r .callee ⊹ comp as .val) := by
      refine (Emits.seq1 ?_ (ihr _)).seq (ihs _)
      split
      · exact emits_op (by decide)
      · exact emits_nil
    obtain ⟨u, v, h2, h3, rfl⟩ := seq_some h
    obtain ⟨hu, lu⟩ := h1 B c u hb h2
    cases h3
    refine ⟨hu, fun l hl => ?_⟩
    rcases (lines_seq u _ _ l).mp hl with hl | hl
    · exact lu l hl
    · simp only [lines, List.flatMap_nil, List.append_nil] at hl
      rcases List.mem_cons.mp hl with rfl | hl
      · exact fine_num (by decide) (by have := nargs_le as; show nargs as ≤ B + (weight r + weight as); omega)
      · rw [List.mem_singleton] at hl
        subst hl
        exact (by decide : 33 < 35)
  | noArg => exact fun _ => emits_nil
  | arg as a ih1 ih2 => exact fun _ => ((ih1 _).seq (ih2 _)).weaken (by show weight as + weight a ≤ weight as + weight a + 1; omega) fun _ h => h
  | decl x =>
    intro m B c o hb h
    simp only [comp] at h
    split at h
    · cases h
    · split at h
      · cases h
        refine ⟨bound_addGlobal hb x, fun l hl => ?_⟩
        simp only [lines, List.flatMap_nil, List.append_nil, List.mem_cons, List.not_mem_nil, or_false] at hl
        rcases hl with rfl | rfl | rfl
        · exact fine_num (by decide) (by have := (strs_add hb.strs x).2; have := hb.big; omega)
        · exact (by decide : 2 < 35)
        · exact (by decide : 29 < 35)
      · cases h
        refine ⟨bound_addLocal hb x, fun l hl => ?_⟩
        simp only [lines, List.flatMap_nil, List.append_nil, List.mem_cons, List.not_mem_nil, or_false] at hl
        rcases hl with rfl | rfl
        · exact (by decide : 2 < 35)
        · exact fine_num (by decide) (by have := bound_top hb; omega)
  | init x e ih =>
    intro m B c o hb h
    simp only [comp] at h
    split at h
    · cases h
    · have hw : B + (1 + weight e) = B + 1 + weight e := by omega
      show Bound (B + (1 + weight e)) _ ∧ ∀ l ∈ _, Fine (B + (1 + weight e)) (consts e) l
      rw [hw]
      split at h
      · obtain ⟨u, v, h2, h3, rfl⟩ := seq_some h
        obtain ⟨u1, u2, h4, h5, rfl⟩ := seq_some h2
        cases h4
        cases h3
        obtain ⟨hu, lu⟩ := ih .val (B + 1) _ u2 (bound_addGlobal hb x) h5
        refine ⟨hu, fun l hl => ?_⟩
        simp only [lines, List.flatMap_append, List.flatMap_nil, List.append_nil, List.mem_append, List.mem_singleton, List.nil_append] at hl
        rcases hl with ((rfl | hl) | rfl) | hl
        · exact fine_num (by decide) (by have := (strs_add hb.strs x).2; have := hb.big; omega)
        · exact lu l (List.mem_append_left _ hl)
        · exact (by decide : 29 < 35)
        · exact lu l (List.mem_append_right _ hl)
      · obtain ⟨u, v, h2, h3, rfl⟩ := seq_some h
        obtain ⟨u1, u2, h4, h5, rfl⟩ := seq_some h2
        cases h4
        cases h3
        obtain ⟨hu, lu⟩ := ih .val (B + 1) _ u2 (bound_addLocal hb x) h5
        refine ⟨hu, fun l hl => ?_⟩
        simp only [lines, List.flatMap_append, List.flatMap_nil, List.append_nil, List.mem_append, List.mem_singleton, List.nil_append, List.mem_cons,
          List.not_mem_nil, or_false] at hl
        have ht : c.top.length ≤ B + 1 + weight e := by have := bound_top hb; omega
        rcases hl with (((rfl | rfl) | hl) | rfl) | hl
        · exact (by decide : 2 < 35)
        · exact fine_num (by decide) ht
        · exact lu l (List.mem_append_left _ hl)
        · exact fine_num (by decide) ht
        · exact lu l (List.mem_append_right _ hl)
  | assign r e ihr ihe =>
    intro m B c o hb h
    have h : (comp r .lval ⊹ comp e .val ⊹ put (storeOp r c)) c = some o := h
    obtain ⟨u, v, h2, h3, rfl⟩ := seq_some h
    obtain ⟨hu, lu⟩ := (ihr _).seq (ihe _) B c u hb h2
    cases h3
    refine ⟨hu, fun l hl => ?_⟩
    rcases (lines_seq u _ _ l).mp hl with hl | hl
    · exact lu l hl
    · simp only [lines, List.flatMap_nil, List.append_nil] at hl
      cases r with
      | id x =>
        simp only [storeOp] at hl
        split at hl
        · rw [List.mem_singleton] at hl
          subst hl
          exact (by decide : 29 < 35)
        · rw [List.mem_singleton] at hl
          subst hl
          exact fine_num (by decide) (by have := bound_symOf hb x; show _ ≤ B + (1 + weight e); omega)
      | _ =>
        simp only [storeOp] at hl
        rw [List.mem_singleton] at hl
        subst hl
        exact (by decide : 31 < 35)
  | run r ih => exact fun _ => (ih _).seq0 (emits_op (by decide))
  | func f ps b ih =>
    intro m B c o hb h
    simp only [comp] at h
    split at h
    · cases h
    · have := (ih .val).chunk (ps := ps) (B + 1) _ o (bound_known hb f) h
      rwa [Nat.add_assoc] at this
  | ifs c a ihc iha =>
    exact fun _ => Emits.labels fun l => (((ihc _).seq0 (emits_jumps (by simp))).seq (iha _)).seq0 (emits_jumps (by simp))
  | ite c a b ihc iha ihb =>
    exact fun _ => Emits.labels fun l => (((((ihc _).seq0 (emits_jumps (by simp))).seq (iha _)).seq0 (emits_jumps (by simp))).seq (ihb _)).seq0 (emits_jumps (by simp))
  | while_ c a ihc iha =>
    exact fun _ => Emits.labels fun l => ((((emits_jumps (l := [.lab l]) (by simp)).seq1 (ihc _)).seq0 (emits_jumps (by simp))).seq (iha _)).seq0 (emits_jumps (by simp))
  | for_ i c u a ihi ihc ihu iha =>
    exact fun _ => Emits.labels fun l => (((((((ihi _).seq0 (emits_jumps (by simp))).seq (ihc _)).seq0 (emits_jumps (by simp))).seq (ihu _)).seq0
      (emits_jumps (by simp))).seq (iha _)).seq0 (emits_jumps (by simp))
  | ret0 => exact fun _ => emits_op (by decide)
  | ret e ih => exact fun _ => (ih _).seq0 (emits_op (by decide))
  | block b ih =>
    intro m B c o hb h
    refine (ih .val).body B _ o (bound_push hb ?_) h
    split
    · exact ⟨Nat.zero_le _, fun e he => by cases he⟩
    · exact tabLe_headD hb
  | skip => exact fun _ => emits_nil
  | seq s l ih1 ih2 => exact fun _ => (ih1 _).seq (ih2 _)

/-! ### Labels -/

/-- The label that a line sets. -/
def Ln.def? : Ln → Option Nat
  | .lab k => some k
  | _ => none

/-- The label that a line refers to. -/
def Ln.ref? : Ln → Option Nat
  | .ref _ k => some k
  | _ => none

/-- The labels set by lines of code. -/
def labs (l : List Ln) : List Nat := l.filterMap Ln.def?

/-- The labels set by an outcome. -/
def defs (o : Out) : List Nat := labs o.code ++ o.news.flatMap (fun e => e.label :: labs e.code)

/-- The labels that an outcome refers to. -/
def refs (o : Out) : List Nat := (lines o).filterMap Ln.ref?

theorem count_defs (a b : Out) (cs : CS) (k : Nat) : (defs ⟨a.code ++ b.code, a.news ++ b.news, cs⟩).count k = (defs a).count k + (defs b).count k := by
  simp only [defs, labs, List.filterMap_append, List.flatMap_append, List.count_append]
  omega

theorem mem_refs (a b : Out) (cs : CS) (k : Nat) : k ∈ refs ⟨a.code ++ b.code, a.news ++ b.news, cs⟩ ↔ k ∈ refs a ∨ k ∈ refs b := by
  unfold refs
  simp only [List.mem_filterMap, lines_seq]
  constructor
  · rintro ⟨l, h | h, e⟩
    · exact .inl ⟨l, h, e⟩
    · exact .inr ⟨l, h, e⟩
  · rintro (⟨l, h, e⟩ | ⟨l, h, e⟩)
    · exact ⟨l, .inl h, e⟩
    · exact ⟨l, .inr h, e⟩

/-- The labels that a piece of compilation sets: `D` of those it is given, and each new one at most once; it refers to these and to `R`. -/
structure LabOf (D R : List Nat) (c : CS) (o : Out) : Prop where
  grow : c.labels ≤ o.cs.labels
  old : ∀ k, k < c.labels → (defs o).count k = D.count k
  new : ∀ k, c.labels ≤ k → (defs o).count k ≤ 1
  top : ∀ k, o.cs.labels ≤ k → (defs o).count k = 0
  ref : ∀ k ∈ refs o, k ∈ R ∨ k ∈ defs o

def Labels (D R : List Nat) (x : C) : Prop := ∀ c o, (∀ d ∈ D, d < c.labels) → x c = some o → LabOf D R c o

theorem Labels.seq {D D' R R' : List Nat} {x y : C} (hx : Labels D R x) (hy : Labels D' R' y) : Labels (D ++ D') (R ++ R') (x ⊹ y) := by
  intro c o hd h
  obtain ⟨a, b, h1, h2, rfl⟩ := seq_some h
  have ha := hx c a (fun d hd' => hd d (List.mem_append_left _ hd')) h1
  have hb := hy a.cs b (fun d hd' => (hd d (List.mem_append_right _ hd')).trans_le ha.grow) h2
  have hc : ∀ k, c.labels ≤ k → D'.count k = 0 := fun k hk => List.count_eq_zero.mpr fun hm => by
    have := hd k (List.mem_append_right _ hm)
    omega
  refine ⟨ha.grow.trans hb.grow, fun k hk => ?_, fun k hk => ?_, fun k hk => ?_, fun k hk => ?_⟩
  · rw [count_defs, ha.old k hk, hb.old k (hk.trans_le ha.grow), List.count_append]
  · rw [count_defs]
    rcases Nat.lt_or_ge k a.cs.labels with h | h
    · rw [hb.old k h, hc k hk]
      exact ha.new k hk
    · rw [ha.top k h]
      have := hb.new k h
      omega
  · rw [count_defs, hb.top k hk, ha.top k (hb.grow.trans hk)]
  · rcases (mem_refs a b _ k).mp hk with hk | hk
    · rcases ha.ref k hk with h | h
      · exact .inl (List.mem_append_left _ h)
      · right
        rw [← List.count_pos_iff, count_defs]
        have := List.count_pos_iff.mpr h
        omega
    · rcases hb.ref k hk with h | h
      · exact .inl (List.mem_append_right _ h)
      · right
        rw [← List.count_pos_iff, count_defs]
        have := List.count_pos_iff.mpr h
        omega

theorem labels_put (l : List Ln) : Labels (labs l) (l.filterMap Ln.ref?) (put l) := by
  intro c o hd h
  cases h
  have e : defs ⟨l, [], c⟩ = labs l := by simp [defs]
  have e' : refs ⟨l, [], c⟩ = l.filterMap Ln.ref? := by simp [refs, lines]
  have hz : ∀ k, c.labels ≤ k → (labs l).count k = 0 := fun k hk => List.count_eq_zero.mpr fun hm => by
    have := hd k hm
    omega
  refine ⟨Nat.le_refl _, fun k _ => by rw [e], fun k hk => by rw [e, hz k hk]; omega, fun k hk => by rw [e, hz k hk], fun k hk => ?_⟩
  rw [e'] at hk
  exact .inl hk

/-- Lines without labels. -/
def plainLn : Ln → Bool
  | .lab _ => false
  | .ref .. => false
  | _ => true

theorem labs_plain {l : List Ln} (h : l.all plainLn = true) : labs l = [] ∧ l.filterMap Ln.ref? = [] := by
  simp only [labs, List.filterMap_eq_nil_iff]
  rw [List.all_eq_true] at h
  constructor <;> intro x hx <;> have := h x hx <;> cases x <;> first | rfl | exact absurd this (by simp [plainLn])

/-- Code without labels changes nothing about them. -/
theorem labels_code {c : CS} {o : Out} {l : List Ln} (hl : l.all plainLn = true) (h1 : o.code = l) (h2 : o.news = []) (h3 : o.cs.labels = c.labels) : LabOf [] [] c o := by
  obtain ⟨e1, e2⟩ := labs_plain hl
  have e : defs o = [] := by unfold defs; rw [h1, h2, e1]; rfl
  have e' : refs o = [] := by unfold refs lines; rw [h1, h2, List.flatMap_nil, List.append_nil, e2]
  refine ⟨h3 ▸ Nat.le_refl _, fun k _ => by rw [e], fun k _ => by rw [e]; exact Nat.zero_le _, fun k _ => by rw [e]; rfl, fun k hk => ?_⟩
  rw [e'] at hk
  cases hk

theorem labels_plain {l : List Ln} (h : l.all plainLn = true) : Labels [] [] (put l) := by
  intro c o _ e
  cases e
  exact labels_code h rfl rfl rfl

theorem labels_str {s : Bytes} {k : Nat → List Ln} (h : ∀ i, (k i).all plainLn = true) : Labels [] [] (withStr s k) := by
  intro c o _ e
  cases e
  exact labels_code (h _) rfl rfl rfl

theorem plain_constant (t : Bytes) : [constant [] t].all plainLn = true := by
  unfold constant
  split <;> rfl

theorem labels_key (k : Key) : Labels [] [] (keyC k) := by
  cases k with
  | name s => exact labels_str (k := fun i => [.num 37 i]) fun i => rfl
  | num t => exact labels_plain (plain_constant t)

theorem Labels.with {n : Nat} {D R : Nat → List Nat} {k : Nat → C} (h : ∀ l, Labels (D l) (R l) (k l)) (hn : ∀ l, (D l).Nodup) (hd : ∀ l, ∀ d ∈ D l, l ≤ d ∧ d < l + n)
    (hr : ∀ l, ∀ d ∈ R l, d ∈ D l) : Labels [] [] (withLabels n k) := by
  intro c o _ e
  have := h c.labels { c with labels := c.labels + n } o (fun d hd' => (hd _ d hd').2) e
  obtain ⟨h1, h2, h3, h4, h5⟩ := this
  have h1 : c.labels + n ≤ o.cs.labels := h1
  have h2 : ∀ j, j < c.labels + n → (defs o).count j = (D c.labels).count j := h2
  have h3 : ∀ j, c.labels + n ≤ j → (defs o).count j ≤ 1 := h3
  refine ⟨by omega, fun j hj => ?_, fun j hj => ?_, h4, fun j hj => ?_⟩
  · rw [h2 j (by omega)]
    show _ = 0
    exact List.count_eq_zero.mpr fun hm => by have := (hd _ j hm).1; omega
  · rcases Nat.lt_or_ge j (c.labels + n) with hl | hl
    · rw [h2 j hl]
      exact List.nodup_iff_count_le_one.mp (hn _) j
    · exact h3 j hl
  · right
    rcases h5 j hj with h | h
    · have hm := hr _ j h
      rw [← List.count_pos_iff, h2 j ((hd _ j hm).2)]
      exact List.count_pos_iff.mpr hm
    · exact h

theorem addParam_labels (c : CS) (x : Bytes) : (addParam c x).labels = c.labels := by
  unfold addParam
  split <;> rfl

theorem params_labels (ps : List Bytes) : ∀ c : CS, (ps.foldl addParam c).labels = c.labels := by
  induction ps with
  | nil => exact fun _ => rfl
  | cons p ps ih =>
    intro c
    rw [List.foldl_cons, ih, addParam_labels]

theorem scope_labels (c : CS) : (scope c).labels = c.labels := by
  unfold scope
  split
  · rw [addParam_labels]
  · rfl

theorem known_labels (x : Bytes) (c : CS) : (known x c).labels = c.labels := by
  unfold known
  split <;> rfl

theorem Labels.body {x : C} (hx : Labels [] [] x) : Labels [] [] (bodyC x) := by
  intro c o _ h
  obtain ⟨b, h1, rfl⟩ := body_some h
  obtain ⟨a1, a2, a3, a4, a5⟩ := hx c b (fun d hd => by cases hd) h1
  have hp : (if b.cs.top.length - c.top.length ≠ 0 then [Ln.num 43 ((b.cs.top.length - c.top.length : Nat) : Int)] else []).all plainLn = true := by
    split <;> rfl
  obtain ⟨e1, e2⟩ := labs_plain hp
  have e : ∀ cs, defs ⟨b.code ++ (if b.cs.top.length - c.top.length ≠ 0 then [Ln.num 43 ((b.cs.top.length - c.top.length : Nat) : Int)] else []), b.news, cs⟩ = defs b := by
    intro cs
    unfold defs
    unfold labs at e1 ⊢
    rw [List.filterMap_append, e1, List.append_nil]
  have e' : ∀ cs, refs ⟨b.code ++ (if b.cs.top.length - c.top.length ≠ 0 then [Ln.num 43 ((b.cs.top.length - c.top.length : Nat) : Int)] else []), b.news, cs⟩ = refs b := by
    intro cs
    unfold refs lines
    rw [List.filterMap_append, List.filterMap_append, e2, List.append_nil, ← List.filterMap_append]
  refine ⟨a1, fun k hk => ?_, fun k hk => ?_, fun k hk => ?_, fun k hk => ?_⟩
  · rw [e]; exact a2 k hk
  · rw [e]; exact a3 k hk
  · rw [e]; exact a4 k hk
  · rw [e'] at hk
    rw [e]
    exact a5 k hk

theorem chunk_labels {sym : Option (Bytes × Nat)} {ps : List Bytes} {x : C} (hx : Labels [] [] x) {c : CS} {o : Out}
    (h : chunkC sym (fun cs => ps.foldl addParam (scope cs)) x c = some o) : LabOf [] [] c o ∧ c.labels ∈ defs o := by
  obtain ⟨b, h1, rfl⟩ := chunk_some h
  obtain ⟨a1, a2, a3, a4, a5⟩ := hx.body _ b (fun d hd => by cases hd) h1
  rw [params_labels, scope_labels] at a1 a2 a3
  have a1 : c.labels + 1 ≤ b.cs.labels := a1
  have a2 : ∀ k, k < c.labels + 1 → (defs b).count k = 0 := a2
  have a3 : ∀ k, c.labels + 1 ≤ k → (defs b).count k ≤ 1 := a3
  have e : ∀ k, (defs ⟨[], ⟨c.labels, b.code ++ [.op 5], sym⟩ :: b.news, b.cs⟩).count k = (defs b).count k + (if c.labels = k then 1 else 0) := by
    intro k
    unfold defs labs
    simp only [List.filterMap_nil, List.flatMap_cons, List.filterMap_append, List.nil_append, List.count_append, List.count_cons, List.cons_append]
    have : ([Ln.op 5].filterMap Ln.def?).count k = 0 := rfl
    rw [this]
    simp only [beq_iff_eq]
    omega
  have e' : ∀ k, k ∈ refs ⟨[], ⟨c.labels, b.code ++ [.op 5], sym⟩ :: b.news, b.cs⟩ → k ∈ refs b := by
    intro k hk
    unfold refs lines at hk ⊢
    rw [List.filterMap_append, List.flatMap_cons, List.filterMap_append, List.filterMap_append] at hk
    have : [Ln.op 5].filterMap Ln.ref? = [] := rfl
    rw [this, List.filterMap_nil, List.nil_append, List.append_nil, ← List.filterMap_append] at hk
    exact hk
  refine ⟨⟨(Nat.le_succ _).trans a1, fun k hk => ?_, fun k hk => ?_, fun k hk => ?_, fun k hk => ?_⟩, ?_⟩
  · rw [e, a2 k (by omega), if_neg (by omega)]
    rfl
  · rw [e]
    split
    · rw [a2 k (by omega)]
    · have := a3 k (by omega)
      omega
  · have hk : b.cs.labels ≤ k := hk
    rw [e, a4 k hk, if_neg (by omega)]
  · rcases a5 k (e' k hk) with h | h
    · cases h
    · right
      rw [← List.count_pos_iff, e]
      have := List.count_pos_iff.mpr h
      omega
  · rw [← List.count_pos_iff, e, if_pos rfl]
    omega

theorem plain_loadOps (i : Int) (g b : Bool) : (loadOps i g b).all plainLn = true := by
  unfold loadOps
  cases g <;> cases b <;> simp only [if_true, if_false, Bool.false_eq_true] <;> first | rfl | (split <;> first | rfl | (split <;> first | rfl | (split <;> rfl)))

theorem Labels.seq0 {D R : List Nat} {x y : C} (hx : Labels D R x) (hy : Labels [] [] y) : Labels D R (x ⊹ y) := by
  have := hx.seq hy
  rwa [List.append_nil, List.append_nil] at this

theorem comp_labels (a : Ast) : ∀ m, Labels [] [] (comp a m) := by
  induction a with
  | nil => exact fun _ => labels_plain rfl
  | num t => exact fun _ => labels_plain (plain_constant t)
  | str s => exact fun _ => labels_str fun _ => rfl
  | bin o a b iha ihb => exact fun _ => ((iha _).seq (ihb _)).seq (labels_plain rfl)
  | un o a iha => exact fun _ => (iha _).seq (labels_plain rfl)
  | lam ps b ih =>
    intro m c o hd h
    have h : (put [.ref 40 c.labels] ⊹ chunkC none (fun cs => ps.foldl addParam (scope cs)) (comp b .val)) c = some o := h
    obtain ⟨u, v, h1, h2, rfl⟩ := seq_some h
    cases h1
    obtain ⟨⟨a1, a2, a3, a4, a5⟩, a6⟩ := chunk_labels (ih _) h2
    have e : ∀ k, (defs ⟨[Ln.ref 40 c.labels] ++ v.code, [] ++ v.news, v.cs⟩).count k = (defs v).count k := by
      intro k
      rw [count_defs ⟨[Ln.ref 40 c.labels], [], c⟩ v v.cs k]
      have : (defs ⟨[Ln.ref 40 c.labels], [], c⟩).count k = 0 := rfl
      omega
    refine ⟨a1, fun k hk => by rw [e]; exact a2 k hk, fun k hk => by rw [e]; exact a3 k hk, fun k hk => by rw [e]; exact a4 k hk, fun k hk => .inr ?_⟩
    rw [← List.count_pos_iff, e, List.count_pos_iff]
    rcases (mem_refs ⟨[Ln.ref 40 c.labels], [], c⟩ v v.cs k).mp hk with hk | hk
    · have hk : k ∈ [c.labels] := hk
      rw [List.mem_singleton] at hk
      rw [hk]
      exact a6
    · rcases a5 k hk with h | h
      · cases h
      · exact h
  | tnew => exact fun _ => labels_plain rfl
  | tset t k v iht ihv => exact fun _ => ((((iht _).seq (labels_plain rfl)).seq (labels_key k)).seq (ihv _)).seq (labels_plain rfl)
  | id x =>
    intro m c o hd h
    cases h
    refine labels_code (l := _) ?_ rfl rfl (known_labels x c)
    cases m with
    | val => exact plain_loadOps ..
    | callee => exact plain_loadOps ..
    | lval => dsimp only; split <;> rfl
  | field r s ih =>
    refine fun m => ((ih _).seq (labels_str fun i => ?_)).seq (labels_plain ?_)
    · split <;> rfl
    · split <;> rfl
  | index r e ihr ihe =>
    refine fun m => (((ihr _).seq (labels_plain ?_)).seq (ihe _)).seq (labels_plain ?_)
    · split <;> rfl
    · split <;> rfl
  | call r as ihr ihs =>
    refine fun m => (((labels_plain ?_).seq (ihr _)).seq (ihs _)).seq (labels_plain rfl)
    split <;> rfl
  | noArg => exact fun _ => labels_plain rfl
  | arg as a ih1 ih2 => exact fun _ => (ih1 _).seq (ih2 _)
  | decl x =>
    intro m c o hd h
    simp only [comp] at h
    split at h
    · cases h
    · split at h
      · cases h; exact labels_code (l := _) rfl rfl rfl rfl
      · cases h; exact labels_code (l := _) rfl rfl rfl rfl
  | init x e ih =>
    intro m c o hd h
    simp only [comp] at h
    split at h
    · cases h
    · split at h
      · have := ((labels_plain (l := [.num 37 (stringAdd c.strings x).2]) rfl).seq (ih .val)).seq (labels_plain (l := [.op 29]) rfl) (addGlobal x c) o (fun d hd => by cases hd) h
        exact ⟨this.grow, this.old, this.new, this.top, this.ref⟩
      · have := ((labels_plain (l := [.op 2, .num 42 c.top.length]) rfl).seq (ih .val)).seq (labels_plain (l := [.num 42 c.top.length]) rfl) (addLocal x c) o
          (fun d hd => by cases hd) h
        exact ⟨this.grow, this.old, this.new, this.top, this.ref⟩
  | assign r e ihr ihe =>
    intro m c o hd h
    refine ((ihr .lval).seq (ihe .val)).seq (labels_plain (l := storeOp r c) ?_) c o (fun d hd => by cases hd) h
    cases r <;> first | rfl | (simp only [storeOp]; split <;> rfl)
  | run r ih => exact fun _ => (ih _).seq (labels_plain rfl)
  | func f ps b ih =>
    intro m c o hd h
    simp only [comp] at h
    split at h
    · cases h
    · obtain ⟨a1, a2, a3, a4, a5⟩ := (chunk_labels (ih _) h).1
      rw [known_labels] at a1 a2 a3
      exact ⟨a1, a2, a3, a4, a5⟩
  | ifs c a ihc iha =>
    refine fun _ => Labels.with (D := fun l => [l]) (R := fun l => [l]) (fun l => (((ihc .val).seq (labels_put [.ref 45 l])).seq (iha .val)).seq (labels_put [.lab l])) ?_ ?_ ?_
    · exact fun l => List.nodup_singleton _
    · intro l d hd
      rw [List.mem_singleton] at hd
      omega
    · exact fun l d hd => hd
  | ite c a b ihc iha ihb =>
    refine fun _ => Labels.with (D := fun l => [l, l + 1]) (R := fun l => [l, l + 1])
      (fun l => (((((ihc .val).seq (labels_put [.ref 45 l])).seq (iha .val)).seq (labels_put [.ref 44 (l + 1), .lab l])).seq (ihb .val)).seq (labels_put [.lab (l + 1)])) ?_ ?_ ?_
    · intro l; simp
    · intro l d hd
      simp only [List.mem_cons, List.not_mem_nil, or_false] at hd
      omega
    · exact fun l d hd => hd
  | while_ c a ihc iha =>
    refine fun _ => Labels.with (D := fun l => [l, l + 1]) (R := fun l => [l + 1, l])
      (fun l => ((((labels_put [.lab l]).seq (ihc .val)).seq (labels_put [.ref 45 (l + 1)])).seq (iha .val)).seq (labels_put [.ref 44 l, .lab (l + 1)])) ?_ ?_ ?_
    · intro l; simp
    · intro l d hd
      simp only [List.mem_cons, List.not_mem_nil, or_false] at hd
      omega
    · intro l d hd
      simp only [List.mem_cons, List.not_mem_nil, or_false] at hd ⊢
      omega
  | for_ i c u a ihi ihc ihu iha =>
    refine fun _ => Labels.with (D := fun l => [l, l + 1, l + 2, l + 3]) (R := fun l => [l + 2, l + 3, l, l + 1])
      (fun l => (((((((ihi .val).seq (labels_put [.lab l])).seq (ihc .val)).seq (labels_put [.ref 46 (l + 2), .ref 44 (l + 3), .lab (l + 1)])).seq (ihu .val)).seq
        (labels_put [.ref 44 l, .lab (l + 2)])).seq (iha .val)).seq (labels_put [.ref 44 (l + 1), .lab (l + 3)])) ?_ ?_ ?_
    · intro l; simp
    · intro l d hd
      simp only [List.mem_cons, List.not_mem_nil, or_false] at hd
      omega
    · intro l d hd
      simp only [List.mem_cons, List.not_mem_nil, or_false] at hd ⊢
      omega
  | ret0 => exact fun _ => labels_plain rfl
  | ret e ih => exact fun _ => (ih _).seq (labels_plain rfl)
  | block b ih =>
    intro m c o hd h
    have := (ih .val).body { c with symstack := (if c.symstack.length = 1 then [] else c.symstack.headD []) :: c.symstack } o (fun d hd => by cases hd) h
    exact ⟨this.grow, this.old, this.new, this.top, this.ref⟩
  | skip => exact fun _ => labels_plain rfl
  | seq s l ih1 ih2 => exact fun _ => (ih1 _).seq (ih2 _)

end Buzz.Comp
