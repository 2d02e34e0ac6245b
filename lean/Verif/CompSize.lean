import Verif.Run

/-
How long compiled code can become.
-/
namespace Buzz.Comp

open Buzz.Msg Buzz.Parser Buzz.Lang
open Buzz.VM (Bin Un)

/-- The number of phrases in a phrase. -/
def phrases : Ast → Nat
  | .bin _ a b => 1 + phrases a + phrases b
  | .un _ a => 1 + phrases a
  | .lam _ b => 1 + phrases b
  | .tset t _ e => 1 + phrases t + phrases e
  | .field r _ => 1 + phrases r
  | .index r e => 1 + phrases r + phrases e
  | .call f as => 1 + phrases f + phrases as
  | .arg as a => 1 + phrases as + phrases a
  | .init _ e => 1 + phrases e
  | .assign r e => 1 + phrases r + phrases e
  | .run r => 1 + phrases r
  | .func _ _ b => 1 + phrases b
  | .ifs c a => 1 + phrases c + phrases a
  | .ite c a b => 1 + phrases c + phrases a + phrases b
  | .while_ c a => 1 + phrases c + phrases a
  | .for_ i c u a => 1 + phrases i + phrases c + phrases u + phrases a
  | .ret e => 1 + phrases e
  | .block b => 1 + phrases b
  | .seq s l => 1 + phrases s + phrases l
  | _ => 1

/-- At most `k` lines and chunks. -/
def Short (k : Nat) (x : C) : Prop := ∀ c o, x c = some o → (lines o).length + o.news.length ≤ k

theorem Short.seq {j k : Nat} {x y : C} (hx : Short j x) (hy : Short k y) : Short (j + k) (x ⊹ y) := by
  intro c o h
  obtain ⟨a, b, h1, h2, rfl⟩ := seq_some h
  have := hx _ _ h1
  have := hy _ _ h2
  simp only [lines, List.length_append, List.flatMap_append] at *
  omega

theorem Short.mono {j k : Nat} {x : C} (h : Short j x) (hk : j ≤ k) : Short k x := fun c o e => (h c o e).trans hk

theorem short_put (l : List Ln) : Short l.length (put l) := by
  intro c o h
  cases h
  simp [lines]

theorem short_str {s : Bytes} {k : Nat → List Ln} {n : Nat} (h : ∀ i, (k i).length ≤ n) : Short n (withStr s k) := by
  intro c o e
  cases e
  simpa [lines] using h _

theorem short_key (k : Key) : Short 1 (keyC k) := by
  cases k with
  | name s => exact short_str (k := fun i => [.num 37 i]) (n := 1) fun _ => le_rfl
  | num t => exact short_put _

theorem Short.body {k : Nat} {x : C} (h : Short k x) : Short (k + 1) (bodyC x) := by
  intro c o e
  obtain ⟨b, h1, rfl⟩ := body_some e
  have := h _ _ h1
  simp only [lines, List.length_append] at *
  split <;> simp only [List.length_cons, List.length_nil] <;> omega

theorem Short.chunk {k : Nat} {x : C} (h : Short k x) {sym : Option (Bytes × Nat)} {en : CS → CS} : Short (k + 3) (chunkC sym en x) := by
  intro c o e
  obtain ⟨b, h1, rfl⟩ := chunk_some e
  have := h.body _ _ h1
  simp only [lines, List.length_append, List.flatMap_cons, List.length_nil, List.length_cons] at *
  omega

theorem Short.labels {n j : Nat} {k : Nat → C} (h : ∀ l, Short j (k l)) : Short j (withLabels n k) := fun c o e => h _ _ _ e

theorem short_load (i : Int) (g b : Bool) : (loadOps i g b).length ≤ 3 := by
  unfold loadOps
  split
  · cases b <;> simp
  · split
    · cases b <;> simp
    · split
      · simp
      · split <;> simp

theorem short_if {p : Prop} [Decidable p] (a b : Ln) : Short 1 (put (if p then [a] else [])) := by
  split
  · exact short_put _
  · exact (short_put _).mono (by simp)

theorem short_if' {p : Prop} [Decidable p] (a : Ln) : Short 1 (put (if p then [] else [a])) := by
  split
  · exact (short_put _).mono (by simp)
  · exact short_put _

/-- A phrase becomes at most 9 lines per phrase in it. -/
theorem comp_short (a : Ast) : ∀ m, Short (9 * phrases a) (comp a m) := by
  induction a with
  | nil => exact fun _ => (short_put _).mono (by simp [phrases])
  | num t => exact fun _ => (short_put _).mono (by simp [phrases])
  | str s => exact fun _ => (short_str (n := 1) fun _ => le_rfl).mono (by simp [phrases])
  | bin o a b iha ihb => exact fun _ => (((iha _).seq (ihb _)).seq (short_put _)).mono (by simp [phrases]; omega)
  | un o a iha => exact fun _ => ((iha _).seq (short_put _)).mono (by simp [phrases]; omega)
  | lam ps b ih =>
    intro m c o h
    exact (((short_put [.ref 40 c.labels]).seq (ih _).chunk).mono (by simp [phrases]; omega)) c o h
  | tnew => exact fun _ => (short_put _).mono (by simp [phrases])
  | tset t k v iht ihv =>
    exact fun _ => (((((iht _).seq (short_put _)).seq (short_key k)).seq (ihv _)).seq (short_put _)).mono (by simp [phrases]; omega)
  | id x =>
    intro m c o h
    cases h
    simp only [lines, List.flatMap_nil, List.append_nil, List.length_nil, Nat.add_zero, phrases]
    cases m with
    | val => exact (short_load ..).trans (by decide)
    | callee => exact (short_load ..).trans (by decide)
    | lval => simp only; split <;> simp
  | field r s ih =>
    intro m
    exact (((ih _).seq (short_str (n := 2) fun i => by split <;> simp)).seq (short_if' _)).mono (by simp [phrases]; omega)
  | index r e ihr ihe =>
    intro m
    exact ((((ihr _).seq (short_if _ (.op 0))).seq (ihe _)).seq (short_if' _)).mono (by simp [phrases]; omega)
  | call r as ihr ihs =>
    intro m
    exact ((((short_if _ (.op 0)).seq (ihr _)).seq (ihs _)).seq (short_put _)).mono (by simp [phrases]; omega)
  | noArg => exact fun _ => (short_put _).mono (by simp [phrases])
  | arg as a ihs iha => exact fun _ => ((ihs _).seq (iha _)).mono (by simp [phrases]; omega)
  | decl x =>
    intro m c o h
    rw [comp] at h
    beta_reduce at h
    split at h
    · cases h
    · split at h <;> cases h <;> simp [lines, phrases]
  | init x e ih =>
    intro m c o h
    rw [comp] at h
    beta_reduce at h
    split at h
    · cases h
    · split at h
      · exact ((((short_put _).seq (ih _)).seq (short_put _)).mono (by simp [phrases]; omega)) _ _ h
      · exact ((((short_put _).seq (ih _)).seq (short_put _)).mono (by simp [phrases]; omega)) _ _ h
  | assign r e ihr ihe =>
    intro m c o h
    have hs : (storeOp r c).length ≤ 1 := by
      unfold storeOp
      split
      · split <;> simp
      · simp
    exact ((((ihr _).seq (ihe _)).seq (short_put _)).mono (by simp [phrases]; omega)) c o h
  | run r ih => exact fun _ => ((ih _).seq (short_put _)).mono (by simp [phrases]; omega)
  | func f ps b ih =>
    intro m c o h
    rw [comp] at h
    beta_reduce at h
    split at h
    · cases h
    · exact ((ih _).chunk.mono (by simp [phrases]; omega)) _ _ h
  | ifs c a ihc iha =>
    exact fun _ => Short.labels fun l => ((((ihc _).seq (short_put _)).seq (iha _)).seq (short_put _)).mono (by simp [phrases]; omega)
  | ite c a b ihc iha ihb =>
    exact fun _ => Short.labels fun l => ((((((ihc _).seq (short_put _)).seq (iha _)).seq (short_put _)).seq (ihb _)).seq (short_put _)).mono (by simp [phrases]; omega)
  | while_ c a ihc iha =>
    exact fun _ => Short.labels fun l => (((((short_put _).seq (ihc _)).seq (short_put _)).seq (iha _)).seq (short_put _)).mono (by simp [phrases]; omega)
  | for_ i c u a ihi ihc ihu iha =>
    exact fun _ => Short.labels fun l =>
      ((((((((ihi _).seq (short_put _)).seq (ihc _)).seq (short_put _)).seq (ihu _)).seq (short_put _)).seq (iha _)).seq (short_put _)).mono (by simp [phrases]; omega)
  | ret0 => exact fun _ => (short_put _).mono (by simp [phrases])
  | ret e ih => exact fun _ => ((ih _).seq (short_put _)).mono (by simp [phrases]; omega)
  | block b ih =>
    intro m c o h
    exact ((ih _).body.mono (by simp [phrases]; omega)) _ _ h
  | skip => exact fun _ => (short_put _).mono (by simp [phrases])
  | seq s l ihs ihl => exact fun _ => ((ihs _).seq (ihl _)).mono (by simp [phrases]; omega)

end Buzz.Comp

namespace Buzz.Link

open Buzz.Msg Buzz.Debug Buzz.Asm Buzz.Props Buzz.Parser Buzz.Comp Buzz.VM Buzz.Sim
open Buzz.Lang (Ast)

theorem lnItems_size (T : Tools) (d : Option Pos) (l : Ln) : progSize (lnItems T d l) ≤ 5 := by
  cases l <;> simp [lnItems, progSize, Item.size]

theorem flatMap_size {α : Type} {f : α → List Item} {k : Nat} (l : List α) (h : ∀ x ∈ l, progSize (f x) ≤ k) : progSize (l.flatMap f) ≤ k * l.length := by
  induction l with
  | nil => simp [progSize]
  | cons a l ih =>
    rw [List.flatMap_cons, progSize_append, List.length_cons]
    have := h a List.mem_cons_self
    have := ih fun x hx => h x (List.mem_cons_of_mem _ hx)
    rw [Nat.mul_add]
    omega

/-- The bytecode has at most 180 bytes per phrase, and the strings. -/
theorem Result.size {T : Tools} {pre : List Bytes} {b : Ast} {o : Out} {cs : List Chunk} (h : Result T pre b o cs) :
    (bytecode T pre b o cs).length ≤ 180 * phrases b + 13 + (stringBytes (stringsOf pre b)).length := by
  have hs := comp_short b .val _ _ h.comp
  rw [bytecode_length, itemsOf, items]
  have h1 : progSize (((chunksOf o).flatMap (regLines (numbered (stringsOf pre b)))).flatMap (lnItems T none)) ≤ 15 * o.news.length := by
    refine (flatMap_size _ fun x _ => lnItems_size T none x).trans ?_
    have : ∀ es : List EC, (es.flatMap (regLines (numbered (stringsOf pre b)))).length ≤ 3 * es.length := by
      intro es
      induction es with
      | nil => simp
      | cons e es ih =>
        rw [List.flatMap_cons, List.length_append, List.length_cons]
        have : (regLines (numbered (stringsOf pre b)) e).length ≤ 3 := by
          unfold regLines
          split <;> simp
        omega
    have := this o.news
    have e : (chunksOf o).flatMap (regLines (numbered (stringsOf pre b))) = o.news.flatMap (regLines (numbered (stringsOf pre b))) := rfl
    rw [e]
    omega
  have h2 : progSize (cs.flatMap (chunkItems T)) ≤ 5 * (Comp.lines o).length + 10 := by
    have : ∀ cs : List Chunk, progSize (cs.flatMap (chunkItems T)) ≤ 5 * ((cs.map plain).flatMap (·.code)).length := by
      intro cs
      induction cs with
      | nil => simp [progSize]
      | cons c cs ih =>
        rw [List.flatMap_cons, progSize_append, List.map_cons, List.flatMap_cons, List.length_append]
        have : progSize (chunkItems T c) ≤ 5 * (plain c).code.length := by
          rw [chunkItems, show (plain c).code = c.code.map Prod.fst from rfl, List.length_map]
          have := flatMap_size c.code fun x _ => lnItems_size T (some x.2) x.1
          simpa [progSize, Item.size, codeItems] using this
        omega
    have := this cs
    rw [h.chunks] at this
    have e : ((chunksOf o).flatMap (·.code)).length = (Comp.lines o).length + 2 := by
      simp only [chunksOf, Comp.lines, List.flatMap_cons, List.length_append, List.length_cons, List.length_nil]
      omega
    omega
  have h3 := strs_size (stringsOf pre b)
  have h4 : ∀ (x : Item) (l : List Item), progSize (x :: l) = x.size + progSize l := fun x l => by simp [progSize]
  rw [h4, progSize_append, h4, progSize_append, h4, h3]
  simp only [Item.size]
  omega

end Buzz.Link
