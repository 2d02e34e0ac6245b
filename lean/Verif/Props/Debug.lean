import Verif.Debug
import Verif.Props.StringLib

/-
Properties C48 (debug information as a two-way map, breakpoints as a set), C62 (debug files) and C63 (running to a breakpoint), proved
about the model of src/buzz/buzzdebug.c.
-/
namespace Buzz.Props

open Buzz.Msg Buzz.VM Buzz.Debug

/-! ### Specification -/

/-- Recording a history of offsets and positions. -/
def recordAll (h : List (Int × Pos)) (d : Dbg) : Dbg := h.foldl (fun d e => infoSet d e.1 e.2) d

/-- The position recorded last for an offset. -/
def LastAt (h : List (Int × Pos)) (o : Int) (p : Pos) : Prop := ∃ pre post, h = pre ++ (o, p) :: post ∧ ∀ e ∈ post, e.1 ≠ o

/-- The smallest offset recorded for a position. -/
def LeastOf (h : List (Int × Pos)) (p : Pos) (o : Int) : Prop := (o, p) ∈ h ∧ ∀ o', (o', p) ∈ h → o ≤ o'

/-- Changes of the breakpoints. -/
inductive Bp where
  | set (o : Int)
  | remove (i : Nat)
  | clear

/-- Their effect. -/
def Bp.act (d : Dbg) : Bp → Dbg
  | .set o => bpSet d o
  | .remove i => bpRemove d i
  | .clear => bpClear d

/-- A history of them. -/
def bpAll (h : List Bp) : Dbg := h.foldl Bp.act Debug.new

/-! ### The maps -/

theorem lastAt_snoc {h : List (Int × Pos)} {o o' : Int} {p p' : Pos} :
    LastAt (h ++ [(o', p')]) o p ↔ if o' = o then p = p' else LastAt h o p := by
  by_cases e : o' = o
  · rw [if_pos e]
    subst e
    constructor
    · rintro ⟨pre, post, h1, h2⟩
      rcases List.eq_nil_or_concat post with rfl | ⟨l, x, rfl⟩
      · exact (congrArg Prod.snd (List.cons_eq_cons.mp (List.append_inj' h1 rfl).2).1).symm
      · have : x = (o', p') := by
          rw [List.concat_eq_append, ← List.cons_append, ← List.append_assoc] at h1
          have := (List.append_inj' h1 rfl).2
          exact (List.cons_eq_cons.mp this).1.symm
        exact absurd (by rw [this]) (h2 x (by simp))
    · rintro rfl
      exact ⟨h, [], rfl, by simp⟩
  · rw [if_neg e]
    constructor
    · rintro ⟨pre, post, h1, h2⟩
      rcases List.eq_nil_or_concat post with rfl | ⟨l, x, rfl⟩
      · have := (List.append_inj' h1 rfl).2
        exact absurd (congrArg Prod.fst (List.cons_eq_cons.mp this).1) e
      · rw [List.concat_eq_append, ← List.cons_append, ← List.append_assoc] at h1
        exact ⟨pre, l, (List.append_inj' h1 rfl).1, fun y hy => h2 y (by simp [hy])⟩
    · rintro ⟨pre, post, rfl, h2⟩
      refine ⟨pre, post ++ [(o', p')], by simp, fun y hy => ?_⟩
      rw [List.mem_append] at hy
      rcases hy with hy | hy
      · exact h2 y hy
      · simp only [List.mem_singleton] at hy
        subst hy
        exact e

theorem infoSet_off (d : Dbg) (o : Int) (p : Pos) : (infoSet d o p).off2script = FMap.set d.off2script o p := by
  unfold infoSet
  simp only
  split
  · rfl
  · split <;> rfl

theorem infoSet_script (d : Dbg) (o : Int) (p q : Pos) : fromScript (infoSet d o p) q =
    if q = p then (match fromScript d p with | none => some o | some x => some (min x o)) else fromScript d q := by
  unfold infoSet fromScript
  simp only
  cases hg : FMap.get d.script2off p with
  | none =>
    simp only [FMap.get_set]
  | some x =>
    simp only
    split
    · rename_i h
      simp only [FMap.get_set]
      rw [min_eq_right (by omega)]
    · rename_i h
      rw [min_eq_left (by omega)]
      by_cases e : q = p
      · rw [if_pos e, e, hg]
      · rw [if_neg e]

/-- **C48**: after any history of recordings an offset has the position recorded last for it, and only offsets recorded have one. -/
theorem C48_offset (h : List (Int × Pos)) (o : Int) (p : Pos) : fromOffset (recordAll h Debug.new) o = some p ↔ LastAt h o p := by
  induction h using List.reverseRecOn generalizing o p with
  | nil =>
    refine ⟨fun k => (by cases k), ?_⟩
    rintro ⟨pre, post, h1, _⟩
    cases pre <;> cases h1
  | append_singleton h e ih =>
    obtain ⟨o', p'⟩ := e
    rw [lastAt_snoc]
    unfold recordAll at ih ⊢
    rw [List.foldl_append]
    show fromOffset (infoSet (h.foldl (fun d e => infoSet d e.1 e.2) Debug.new) o' p') o = some p ↔ _
    unfold fromOffset at ih ⊢
    rw [infoSet_off, FMap.get_set]
    by_cases k : o' = o
    · rw [if_pos k, if_pos k.symm, Option.some.injEq]; exact eq_comm
    · rw [if_neg k, if_neg (Ne.symm k)]; exact ih o p

/-- **C48**: a position has the smallest offset recorded for it, and only positions recorded have one. -/
theorem C48_script (h : List (Int × Pos)) (o : Int) (p : Pos) : fromScript (recordAll h Debug.new) p = some o ↔ LeastOf h p o := by
  induction h using List.reverseRecOn generalizing o p with
  | nil =>
    refine ⟨fun k => (by cases k), fun k => ?_⟩
    exact absurd k.1 List.not_mem_nil
  | append_singleton h e ih =>
    obtain ⟨o', p'⟩ := e
    unfold recordAll at ih ⊢
    rw [List.foldl_append]
    show fromScript (infoSet (h.foldl (fun d e => infoSet d e.1 e.2) Debug.new) o' p') p = some o ↔ _
    rw [infoSet_script]
    by_cases k : p = p'
    · rw [if_pos k]
      subst k
      cases hg : fromScript (h.foldl (fun d e => infoSet d e.1 e.2) Debug.new) p with
      | none =>
        have hno : ∀ x, (x, p) ∉ h := by
          intro x hx
          -- some smallest element would exist
          obtain ⟨m, hm1, hm2⟩ : ∃ m, (m, p) ∈ h ∧ ∀ y, (y, p) ∈ h → m ≤ y := by
            have hne : (h.filterMap (fun e => if e.2 = p then some e.1 else none)) ≠ [] := by
              intro hnil
              have : x ∈ h.filterMap (fun e => if e.2 = p then some e.1 else none) :=
                List.mem_filterMap.mpr ⟨_, hx, by simp⟩
              rw [hnil] at this
              cases this
            obtain ⟨m, hm⟩ := Option.ne_none_iff_exists'.mp (fun hc => hne (List.min?_eq_none_iff.mp hc))
            obtain ⟨hm1, hm2⟩ := List.min?_eq_some_iff.mp hm
            have inv : ∀ y, y ∈ h.filterMap (fun e => if e.2 = p then some e.1 else none) ↔ (y, p) ∈ h := by
              intro y
              rw [List.mem_filterMap]
              constructor
              · rintro ⟨⟨a, b⟩, h1, h2⟩
                simp only at h2
                split at h2
                · rename_i hb
                  cases h2
                  rw [← hb]
                  exact h1
                · cases h2
              · intro hy
                exact ⟨_, hy, by simp⟩
            exact ⟨m, (inv m).mp hm1, fun y hy => hm2 y ((inv y).mpr hy)⟩
          have := (ih m p).mpr ⟨hm1, hm2⟩
          rw [hg] at this
          cases this
        simp only [Option.some.injEq]
        constructor
        · rintro rfl
          refine ⟨by simp, fun x hx => ?_⟩
          rw [List.mem_append] at hx
          rcases hx with hx | hx
          · exact absurd hx (hno x)
          · simp only [List.mem_singleton, Prod.mk.injEq] at hx
            omega
        · rintro ⟨h1, _⟩
          rw [List.mem_append] at h1
          rcases h1 with h1 | h1
          · exact absurd h1 (hno o)
          · simp only [List.mem_singleton, Prod.mk.injEq] at h1
            exact h1.1.symm
      | some x =>
        obtain ⟨hx1, hx2⟩ := (ih x p).mp hg
        simp only [Option.some.injEq]
        constructor
        · rintro rfl
          refine ⟨?_, fun y hy => ?_⟩
          · rcases min_choice x o' with e | e
            · rw [e, List.mem_append]; exact Or.inl hx1
            · rw [e]; simp
          · rw [List.mem_append] at hy
            rcases hy with hy | hy
            · exact le_trans (min_le_left _ _) (hx2 y hy)
            · simp only [List.mem_singleton, Prod.mk.injEq] at hy
              rw [hy.1]; exact min_le_right _ _
        · rintro ⟨h1, h2⟩
          have a1 := h2 x (List.mem_append_left _ hx1)
          have a2 := h2 o' (by simp)
          rw [List.mem_append] at h1
          rcases h1 with h1 | h1
          · have := hx2 o h1
            omega
          · simp only [List.mem_singleton, Prod.mk.injEq] at h1
            omega
    · rw [if_neg k, ih]
      have hm : ∀ x, (x, p) ∈ h ++ [(o', p')] ↔ (x, p) ∈ h := by
        intro x
        simp [k]
      unfold LeastOf
      simp only [hm]

/-! ### Breakpoints -/

theorem bp_nodup (h : List Bp) : (bpAll h).bps.Nodup := by
  unfold bpAll
  induction h using List.reverseRecOn with
  | nil => exact List.nodup_nil
  | append_singleton h e ih =>
    rw [List.foldl_append]
    generalize h.foldl Bp.act Debug.new = d at ih
    show (Bp.act d e).bps.Nodup
    cases e with
    | set o =>
      show (bpSet d o).bps.Nodup
      unfold bpSet
      split
      · exact ih
      · rename_i hc
        unfold bpExists at hc
        have : o ∉ d.bps := by simpa using hc
        show (d.bps ++ [o]).Nodup
        rw [List.nodup_append]
        exact ⟨ih, by simp, fun a ha b hb => by simp only [List.mem_singleton] at hb; rw [hb]; exact fun k => this (k ▸ ha)⟩
    | remove i => exact ih.sublist (List.eraseIdx_sublist _ _)
    | clear => exact List.nodup_nil

/-- **C48**: the breakpoints are a set, after any history of changes: setting adds exactly one offset, removing by index removes
exactly the offset at that index, clearing removes all, and the number of breakpoints is the number of different offsets. -/
theorem C48_breakpoints (h : List Bp) :
    (∀ o x, bpExists (Bp.act (bpAll h) (.set o)) x = true ↔ x = o ∨ bpExists (bpAll h) x = true) ∧
    (∀ i o x, (bpAll h).bps[i]? = some o → (bpExists (Bp.act (bpAll h) (.remove i)) x = true ↔ x ≠ o ∧ bpExists (bpAll h) x = true)) ∧
    (∀ i, (bpAll h).bps[i]? = none → Bp.act (bpAll h) (.remove i) = bpAll h) ∧
    (∀ x, bpExists (Bp.act (bpAll h) .clear) x = false) ∧
    (bpAll h).bps.Nodup ∧ ∀ x, bpExists (bpAll h) x = true ↔ x ∈ (bpAll h).bps := by
  have hn := bp_nodup h
  generalize bpAll h = d at hn
  refine ⟨fun o x => ?_, fun i o x hi => ?_, fun i hi => ?_, fun x => rfl, hn, fun x => by simp [bpExists]⟩
  · show bpExists (bpSet d o) x = true ↔ _
    unfold bpSet
    split
    · rename_i hc
      constructor
      · exact Or.inr
      · rintro (rfl | k)
        · exact hc
        · exact k
    · show (d.bps ++ [o]).contains x = true ↔ _
      simp only [bpExists, List.contains_iff_mem, List.mem_append, List.mem_singleton]
      exact or_comm
  · show (d.bps.eraseIdx i).contains x = true ↔ _
    simp only [bpExists, List.contains_iff_mem]
    obtain ⟨hlt, he⟩ := List.getElem?_eq_some_iff.mp hi
    have hsplit : d.bps = d.bps.take i ++ o :: d.bps.drop (i + 1) := by
      rw [← he, ← List.drop_eq_getElem_cons hlt, List.take_append_drop]
    rw [List.eraseIdx_eq_take_drop_succ]
    have hn' := hn
    rw [hsplit] at hn'
    rw [List.nodup_append] at hn'
    obtain ⟨n1, n2, n3⟩ := hn'
    rw [List.nodup_cons] at n2
    constructor
    · intro k
      refine ⟨?_, ?_⟩
      · rintro rfl
        rw [List.mem_append] at k
        rcases k with k | k
        · exact n3 x k x (by simp) rfl
        · exact n2.1 k
      · rw [hsplit]
        rw [List.mem_append] at k ⊢
        rcases k with k | k
        · exact Or.inl k
        · exact Or.inr (List.mem_cons_of_mem _ k)
    · rintro ⟨k1, k2⟩
      rw [hsplit, List.mem_append, List.mem_cons] at k2
      rw [List.mem_append]
      rcases k2 with k | k | k
      · exact Or.inl k
      · exact absurd k k1
      · exact Or.inr k
  · show bpRemove d i = d
    unfold bpRemove
    rw [List.eraseIdx_of_length_le (List.getElem?_eq_none_iff.mp hi)]

/-! ### Files -/

theorem le_length (n x : Nat) : (le n x).length = n := by
  induction n generalizing x with
  | zero => rfl
  | succ n ih => show (le n (x / 256)).length + 1 = _; rw [ih]

theorem unle_le (n x : Nat) (h : x < 256 ^ n) : unle (le n x) = x := by
  induction n generalizing x with
  | zero =>
    rw [pow_zero] at h
    have : x = 0 := by omega
    rw [this]; rfl
  | succ n ih =>
    show (byte (x % 256)).toNat + 256 * unle (le n (x / 256)) = x
    rw [ih (x / 256) (by rw [pow_succ] at h; omega)]
    have : (byte (x % 256)).toNat = x % 256 := by
      simp [byte]
    omega

/-- An entry that a file can hold: 32-bit offset, 64-bit numbers, a file name of less than 512 bytes without zero bytes. -/
structure Fits (e : Int × Pos) : Prop where
  off : I32 e.1
  line : e.2.line < 256 ^ 8
  col : e.2.col < 256 ^ 8
  name : e.2.fname.length < 512
  text : (0 : UInt8) ∉ e.2.fname

theorem take_drop_app {a b : Bytes} {n : Nat} (h : a.length = n) : (a ++ b).take n = a ∧ (a ++ b).drop n = b := by
  subst h
  exact ⟨List.take_left, List.drop_left⟩

theorem readLoop_dump {e : Int × Pos} (f : Fits e) (n : Nat) (bs : Bytes) (d : Dbg) :
    readLoop (n + 1) 512 (dump e ++ bs) d = readLoop n 512 bs (infoSet d e.1 e.2) := by
  obtain ⟨o, p⟩ := e
  have hlen : p.fname.length % 65536 = p.fname.length := Nat.mod_eq_of_lt (by have := f.name; simp only at this; omega)
  have hd : dump (o, p) ++ bs = le 4 (o % 4294967296).toNat ++ (le 8 p.line ++ (le 8 p.col ++ (le 2 p.fname.length ++ (p.fname ++ bs)))) := by
    unfold dump
    simp only [hlen, List.take_length, List.append_assoc]
  have e4 : 256 ^ 4 = 4294967296 := by norm_num
  have e2 : 256 ^ 2 = 65536 := by norm_num
  have l4 := le_length 4 (o % 4294967296).toNat
  have l8 := le_length 8 p.line
  have l8' := le_length 8 p.col
  have l2 := le_length 2 p.fname.length
  have hname := f.name
  simp only at hname
  rw [hd]
  generalize hR : readLoop n 512 bs (infoSet d (o, p).1 (o, p).2) = R
  unfold readLoop
  rw [if_neg (by simp only [List.length_append, l4, l8, l8', l2]; omega)]
  have t4 := take_drop_app (b := le 8 p.line ++ (le 8 p.col ++ (le 2 p.fname.length ++ (p.fname ++ bs)))) l4
  have t8 := take_drop_app (b := le 8 p.col ++ (le 2 p.fname.length ++ (p.fname ++ bs))) l8
  have t8' := take_drop_app (b := le 2 p.fname.length ++ (p.fname ++ bs)) l8'
  have t2 := take_drop_app (b := p.fname ++ bs) l2
  have tn := take_drop_app (a := p.fname) (b := bs) rfl
  have d12 : ∀ l : Bytes, l.drop 12 = (l.drop 4).drop 8 := fun l => by rw [List.drop_drop]
  have d20 : ∀ l : Bytes, l.drop 20 = ((l.drop 4).drop 8).drop 8 := fun l => by rw [List.drop_drop, List.drop_drop]
  have d22 : ∀ l : Bytes, l.drop 22 = (((l.drop 4).drop 8).drop 8).drop 2 := fun l => by rw [List.drop_drop, List.drop_drop, List.drop_drop]
  simp only [d12, d20, d22, t4.1, t4.2, t8.1, t8.2, t8'.1, t8'.2, t2.1, t2.2]
  rw [unle_le 4 _ (by omega), unle_le 8 _ f.line, unle_le 8 _ f.col, unle_le 2 _ (by omega)]
  rw [if_neg (show ¬ p.fname.length > 512 by omega), if_neg (by simp), if_neg (by omega), tn.1, tn.2, cstr_eq f.text]
  have hoff := f.off
  unfold I32 at hoff
  simp only at hoff
  have : intOfU32 (o % 4294967296).toNat = o := by unfold intOfU32; split <;> omega
  rw [this]
  exact hR

theorem dump_length (e : Int × Pos) : 0 < (dump e).length := by
  unfold dump
  simp only [List.length_append, le_length]
  omega

theorem readLoop_all : ∀ (es : List (Int × Pos)) (n : Nat) (d : Dbg), (∀ e ∈ es, Fits e) → es.length < n →
    readLoop n 512 (es.flatMap dump) d = .ok (recordAll es d)
  | [], n + 1, d, _, _ => rfl
  | e :: es, n + 1, d, h, hl => by
    rw [List.flatMap_cons, readLoop_dump (h e (by simp)), readLoop_all es n _ (fun x hx => h x (by simp [hx])) (by simpa using hl)]
    rfl

theorem flatMap_length (es : List (Int × Pos)) : es.length ≤ (es.flatMap dump).length := by
  induction es with
  | nil => simp
  | cons e es ih =>
    rw [List.flatMap_cons, List.length_append, List.length_cons]
    have := dump_length e
    omega

/-- **C62**: reading a debug file into fresh debug information restores the position of every offset, in whatever order the entries
were written. -/
theorem C62_roundtrip (d : Dbg) (hk : FMap.Ok d.off2script) (es : List (Int × Pos)) (hp : es.Perm d.off2script) (hf : ∀ e ∈ es, Fits e) :
    ∃ d', fromFile (toFile es).1 Debug.new = .ok d' ∧ (∀ o, fromOffset d' o = fromOffset d o) ∧
      ∀ o p, fromScript d' p = some o ↔ LeastOf d.off2script p o := by
  refine ⟨recordAll es Debug.new, ?_, fun o => ?_, fun o p => ?_⟩
  · exact readLoop_all es _ _ hf (by have := flatMap_length es; unfold toFile; simp only; omega)
  · have hk' : (es.map (·.1)).Nodup := (hp.map _).nodup_iff.mpr hk
    refine Option.ext fun p => ?_
    rw [C48_offset]
    unfold fromOffset
    rw [← FMap.mem_iff_get hk, ← hp.mem_iff]
    constructor
    · rintro ⟨pre, post, rfl, _⟩
      simp
    · intro hm
      obtain ⟨pre, post, rfl⟩ := List.append_of_mem hm
      refine ⟨pre, post, rfl, fun e he k => ?_⟩
      rw [List.map_append, List.map_cons, List.nodup_append] at hk'
      have := (List.nodup_cons.mp hk'.2.1).1
      exact this (List.mem_map.mpr ⟨e, he, k⟩)
  · rw [C48_script]
    unfold LeastOf
    simp only [hp.mem_iff]

/-- **C62**: reading adds to what is there; the comment in the header that the information is erased first does not hold. -/
theorem C62_adds (d : Dbg) (es : List (Int × Pos)) (hf : ∀ e ∈ es, Fits e) : fromFile (toFile es).1 d = .ok (recordAll es d) :=
  readLoop_all es _ _ hf (by have := flatMap_length es; unfold toFile; simp only; omega)

/-- **C62 fails** for a file name of exactly 512 bytes: its end is written outside the buffer. -/
theorem C62_name_512 (o : Int) (line col : Nat) (s : Bytes) (hs : s.length = 512) : fromFile (dump (o, ⟨s, line, col⟩)) Debug.new = .ub := by
  have l4 := le_length 4 (o % 4294967296).toNat
  have l8 := le_length 8 line
  have l8' := le_length 8 col
  have l2 := le_length 2 512
  have hd : dump (o, ⟨s, line, col⟩) = le 4 (o % 4294967296).toNat ++ (le 8 line ++ (le 8 col ++ (le 2 512 ++ s))) := by
    unfold dump
    simp only [hs]
    rw [show 512 % 65536 = 512 from rfl, List.take_of_length_le (by omega)]
    simp only [List.append_assoc]
  unfold fromFile readLoop
  rw [hd]
  have t4 := take_drop_app (b := le 8 line ++ (le 8 col ++ (le 2 512 ++ s))) l4
  have t8 := take_drop_app (b := le 8 col ++ (le 2 512 ++ s)) l8
  have t8' := take_drop_app (b := le 2 512 ++ s) l8'
  have t2 := take_drop_app (b := s) l2
  have d20 : ∀ l : Bytes, l.drop 20 = ((l.drop 4).drop 8).drop 8 := fun l => by rw [List.drop_drop, List.drop_drop]
  have d22 : ∀ l : Bytes, l.drop 22 = (((l.drop 4).drop 8).drop 8).drop 2 := fun l => by rw [List.drop_drop, List.drop_drop, List.drop_drop]
  rw [if_neg (by simp only [List.length_append, l4, l8, l8', l2]; omega)]
  simp only [d20, d22, t4.2, t8.2, t8'.2, t2.1, t2.2]
  rw [unle_le 2 512 (by norm_num)]
  simp only [hs, show ¬ (512 > 512) from lt_irrefl _, show ¬ (512 < 512) from lt_irrefl _, if_false, if_pos (show 512 ≥ 512 from le_refl _)]

/-- **C62 fails** as to the result of writing, which the header gives as 1 for success. -/
theorem C62_result (es : List (Int × Pos)) : (toFile es).2 = 0 := rfl

/-! ### Running to a breakpoint -/

/-- Steps of a ready machine, none of which starts at a breakpoint. -/
inductive Goes (E : Env) (F : CFuns) (B : Int → Prop) : VM → VM → Prop where
  | here (vm : VM) : Goes E F B vm vm
  | step {vm u w : VM} : vm.state = .ready → ¬ B vm.pc → VM.step E F vm = .ok u → Goes E F B u w → Goes E F B vm w

theorem contLoop_goes {E : Env} {F : CFuns} {d : Dbg} : ∀ (n : Nat) (vm w : VM), vm.state = .ready → contLoop E F d n vm = .ok w →
    Goes E F (fun o => bpExists d o = true) vm w ∧ (bpExists d w.pc = true ∨ w.state ≠ .ready)
  | 0, vm, w, _, h => by cases h
  | n + 1, vm, w, hr, h => by
    unfold contLoop at h
    split at h
    · rename_i hb
      cases h
      exact ⟨.here _, Or.inl hb⟩
    · rename_i hb
      cases hs : VM.step E F vm with
      | ok u =>
        rw [hs, Res.ok_bind] at h
        split at h
        · rename_i hu
          obtain ⟨k1, k2⟩ := contLoop_goes n u w hu h
          exact ⟨.step hr hb hs k1, k2⟩
        · rename_i hu
          simp only [Res.pure_eq, Res.ok.injEq] at h
          subst h
          exact ⟨.step hr hb hs (.here _), Or.inr hu⟩
      | ub => rw [hs] at h; cases h
      | abort => rw [hs] at h; cases h
      | hang => rw [hs] at h; cases h

/-- **C63**: `buzzdebug_continue` on a ready or stopped machine executes instructions up to the first breakpoint or up to the end of
the run, whichever comes first; the machine is then stopped if it is at a breakpoint, and otherwise in the state of the last step. -/
theorem C63_continue (E : Env) (F : CFuns) (d : Dbg) (n : Nat) (vm w : VM) (hs : vm.state = .ready ∨ vm.state = .stopped) (h : cont E F d n vm = .ok w) :
    ∃ u, Goes E F (fun o => bpExists d o = true) { vm with state := .ready } u ∧
      ((bpExists d u.pc = true ∧ w = { u with state := .stopped }) ∨ (bpExists d u.pc = false ∧ u.state ≠ .ready ∧ w = u)) := by
  unfold cont at h
  rw [if_neg (by rintro ⟨a, b⟩; rcases hs with k | k <;> [exact a k; exact b k])] at h
  cases hc : contLoop E F d n { vm with state := .ready } with
  | ok u =>
    rw [hc, Res.ok_bind] at h
    obtain ⟨k1, k2⟩ := contLoop_goes n _ u rfl hc
    refine ⟨u, k1, ?_⟩
    simp only [Res.pure_eq, Res.ok.injEq] at h
    cases hb : bpExists d u.pc with
    | true =>
      rw [hb, if_pos rfl] at h
      exact Or.inl ⟨rfl, h.symm⟩
    | false =>
      rw [hb, if_neg (by simp)] at h
      refine Or.inr ⟨rfl, ?_, h.symm⟩
      rcases k2 with k | k
      · rw [hb] at k; cases k
      · exact k
  | ub => rw [hc] at h; cases h
  | abort => rw [hc] at h; cases h
  | hang => rw [hc] at h; cases h

/-- In the other states nothing happens. -/
theorem C63_other (E : Env) (F : CFuns) (d : Dbg) (n : Nat) (vm : VM) (h1 : vm.state ≠ .ready) (h2 : vm.state ≠ .stopped) : cont E F d n vm = .ok vm := by
  unfold cont
  rw [if_pos ⟨h1, h2⟩]

/-- **C63 fails** to continue from a breakpoint: a machine stopped at a breakpoint executes no instruction, however often it is
continued. -/
theorem C63_stuck (E : Env) (F : CFuns) (d : Dbg) (n : Nat) (vm : VM) (hs : vm.state = .stopped) (hb : bpExists d vm.pc = true) :
    cont E F d (n + 1) vm = .ok vm := by
  unfold cont contLoop
  rw [if_neg (by rw [hs]; simp)]
  simp only [hb, if_true, Res.ok_bind, Res.pure_eq]
  obtain ⟨⟩ := vm
  simp only at hs
  subst hs
  rfl

/-! ### Concrete cases -/

/-- Two positions recorded for one offset, and two offsets for one position. -/
example : fromOffset (recordAll [(8, ⟨[97], 1, 1⟩), (4, ⟨[97], 2, 1⟩), (8, ⟨[97], 2, 1⟩)] Debug.new) 8 = some ⟨[97], 2, 1⟩ ∧
    fromScript (recordAll [(8, ⟨[97], 1, 1⟩), (4, ⟨[97], 2, 1⟩), (8, ⟨[97], 2, 1⟩)] Debug.new) ⟨[97], 2, 1⟩ = some 4 ∧
    fromScript (recordAll [(8, ⟨[97], 1, 1⟩), (4, ⟨[97], 2, 1⟩), (8, ⟨[97], 2, 1⟩)] Debug.new) ⟨[98], 2, 1⟩ = none := by decide

example : LastAt [(8, ⟨[97], 1, 1⟩), (8, ⟨[97], 2, 1⟩), (4, ⟨[97], 3, 1⟩)] 8 ⟨[97], 2, 1⟩ := ⟨[(8, ⟨[97], 1, 1⟩)], [(4, ⟨[97], 3, 1⟩)], rfl, by simp⟩

/-- Breakpoints. -/
example : (bpAll [.set 3, .set 5, .set 3, .remove 0, .set 7]).bps = [5, 7] := by decide

/-- A file. -/
example : Fits (8, ⟨[97], 1, 300⟩) ∧ dump (8, ⟨[97], 1, 300⟩) = [8, 0, 0, 0, 1, 0, 0, 0, 0, 0, 0, 0, 44, 1, 0, 0, 0, 0, 0, 0, 1, 0, 97] :=
  ⟨⟨by unfold I32; decide, by norm_num, by norm_num, by decide, by decide⟩, by decide⟩

/-- Loads a program and continues it. -/
def continued10 (code : Bytes) (bps : List Int) : Res (State × Err × Int) := do
  let vm ← load host code VM.new
  let vm ← cont host noFuns { Debug.new with bps := bps } 10 vm
  pure (vm.state, vm.error, vm.pc)

/-- The program `pushnil; pop; pop; done`, whose second `pop` is an error, stops at a breakpoint before it, and otherwise ends with the
error. -/
example : continued10 [0, 0, 2, 4, 4, 1] [4] = .ok (.stopped, .none, 4) ∧ continued10 [0, 0, 2, 4, 4, 1] [] = .ok (.error, .stack, 4) := by decide +kernel

/-- A breakpoint where a wrong jump leads hides the state of error. -/
example : continued10 [0, 0, 44, 100, 0, 0, 0, 1] [100] = .ok (.stopped, .pc, 100) ∧
    continued10 [0, 0, 44, 100, 0, 0, 0, 1] [] = .ok (.error, .pc, 100) := by decide +kernel

end Buzz.Props
