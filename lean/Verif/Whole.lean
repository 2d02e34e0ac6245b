import Verif.Link
import Verif.CompLegal
import Verif.CompPos

/-
The bytecode of a whole program: the compiler's output, assembled.
-/
namespace Buzz.Link

open Buzz.Msg Buzz.Debug Buzz.Asm Buzz.Props Buzz.Parser Buzz.Comp Buzz.VM Buzz.Sim
open Buzz.Lang (Ast Shape T2 Syn complete decls functions mentions Legal tops syn_tops)

/-! ### Strings -/

theorem numbered_mod {ss : List Bytes} (h : ss.length ≤ 65536) : numbered ss = ss.zipIdx := by
  unfold numbered
  conv_rhs => rw [← List.map_id ss.zipIdx]
  refine List.map_congr_left fun e he => ?_
  have := List.snd_lt_of_mem_zipIdx he
  rw [Nat.mod_eq_of_lt (by omega)]
  rfl

theorem sorted_numbered {ss : List Bytes} (h : ss.length ≤ 65536) : sorted (numbered ss) = ss := by
  unfold sorted
  rw [List.mergeSort_of_pairwise]
  · exact numbered_names ss
  · rw [numbered_mod h, List.pairwise_iff_getElem]
    intro i j hi hj hij
    simp only [List.getElem_zipIdx, Nat.zero_add, decide_eq_true_eq]
    omega

/-! ### The registration of functions -/

/-- The code that makes a function known. -/
def regLines (strs : List (Bytes × Nat)) (e : EC) : List Ln :=
  match e.sym with
  | none => []
  | some (f, _) => [.num 37 (((FMap.get strs f).getD 0 : Nat) : Int), .ref 38 e.label, .op 29]

theorem registerAll_ok {base : Syms} {strs : List (Bytes × Nat)} (hb : BaseOk base strs) : ∀ cs : List Chunk,
    (∀ c ∈ cs, ∀ f g, c.sym = some (f, g) → ∃ s, FMap.get base f = some s ∧ s.gen = g) → registerAll base cs = .ok ((cs.map plain).flatMap (regLines strs))
  | [], _ => rfl
  | c :: cs, h => by
    have ih := registerAll_ok hb cs fun x hx => h x (List.mem_cons_of_mem _ hx)
    have h1 : register base c = .ok (regLines strs (plain c)) := by
      unfold register regLines plain
      simp only
      cases hs : c.sym with
      | none => rfl
      | some fg =>
        obtain ⟨f, g⟩ := fg
        obtain ⟨s, h2, h3⟩ := h c List.mem_cons_self f g hs
        obtain ⟨h4, h5⟩ := hb _ (FMap.mem_of_get h2)
        simp only at h4 h5
        simp only [h2, h3, if_true, h4, h5, Option.getD_some]
    unfold registerAll
    rw [h1, Res.ok_bind, ih, Res.ok_bind, Res.pure_eq]
    rfl

/-! ### Labels -/

/-- The label of a line. -/
def lnLabels : Ln → List Bytes
  | .lab k => [labelText k]
  | .exit => [exitText]
  | _ => []

theorem labelsOf_ln (T : Tools) (d : Option Pos) (l : Ln) : labelsOf (lnItems T d l) = lnLabels l := by cases l <;> rfl

theorem labelsOf_flatMap {α : Type} (f : α → List Item) (l : List α) : labelsOf (l.flatMap f) = l.flatMap (fun x => labelsOf (f x)) := by
  induction l with
  | nil => rfl
  | cons x l ih => rw [List.flatMap_cons, labelsOf_append, ih, List.flatMap_cons]

theorem labelsOf_chunk (T : Tools) (c : Chunk) : labelsOf (chunkItems T c) = labelText (plain c).label :: (plain c).code.flatMap lnLabels := by
  show labelText c.label :: labelsOf (codeItems T c.code) = _
  unfold codeItems plain
  simp only [labelsOf_flatMap, labelsOf_ln, List.flatMap_map]

theorem flatMap_nil {α β : Type} {f : α → List β} {l : List α} (h : ∀ x ∈ l, f x = []) : l.flatMap f = [] := by
  rw [List.flatMap_eq_nil_iff]
  exact h

theorem labelsOf_items (T : Tools) (ss : List Bytes) (r : List Ln) (cs : List Chunk) (hr : ∀ l ∈ r, lnLabels l = []) :
    labelsOf (items T ss r cs) = (cs.map plain).flatMap (fun e => labelText e.label :: e.code.flatMap lnLabels) := by
  unfold items
  rw [show Item.count ss.length :: (ss.map Item.str ++ Item.blank :: (r.flatMap (lnItems T none) ++ Item.ins 0 none none :: cs.flatMap (chunkItems T))) =
    [Item.count ss.length] ++ (ss.map Item.str ++ ([Item.blank] ++ (r.flatMap (lnItems T none) ++ ([Item.ins 0 none none] ++ cs.flatMap (chunkItems T))))) from rfl]
  simp only [labelsOf_append, labelsOf_flatMap, labelsOf_chunk, List.flatMap_map, labelsOf_ln]
  rw [flatMap_nil hr, show labelsOf (ss.map Item.str) = [] by simp [labelsOf, List.filterMap_map, Function.comp_def]]
  rfl

theorem lnLabels_labs {N : Nat} {ts : List Bytes} {l : List Ln} (h : ∀ x ∈ l, Fine N ts x) : l.flatMap lnLabels = (labs l).map labelText := by
  induction l with
  | nil => rfl
  | cons x l ih =>
    rw [List.flatMap_cons, ih fun y hy => h y (List.mem_cons_of_mem _ hy)]
    have hx := h x List.mem_cons_self
    cases x <;> first | rfl | exact absurd hx id

theorem regLines_labels (strs : List (Bytes × Nat)) (e : EC) : ∀ l ∈ regLines strs e, lnLabels l = [] := by
  unfold regLines
  cases e.sym with
  | none => simp
  | some fg => simp [lnLabels]

/-- What the compiler makes of a whole program. -/
def chunksOf (o : Out) : List EC := ⟨0, o.code ++ [.exit, .op 1], none⟩ :: o.news

theorem linkable {T : Tools} {pre : List Bytes} {b : Ast} {o : Out} (ho : comp b .val (start pre) = some o) {N : Nat} {ts : List Bytes} (hf : ∀ l ∈ lines o, Fine N ts l)
    (hm : ∀ e ∈ o.news, ∃ X, e.code = X ++ [.op 5]) {ss : List Bytes} {strs : List (Bytes × Nat)} {cs : List Chunk} (hp : cs.map plain = chunksOf o) :
    Linkable (items T ss ((chunksOf o).flatMap (regLines strs)) cs) := by
  have hl := comp_labels b .val (start pre) o (fun d hd => by cases hd) ho
  have hlab : labelsOf (items T ss ((chunksOf o).flatMap (regLines strs)) cs) =
      labelText 0 :: ((labs o.code).map labelText ++ exitText :: (o.news.flatMap (fun e => e.label :: labs e.code)).map labelText) := by
    rw [labelsOf_items, hp]
    · unfold chunksOf
      rw [List.flatMap_cons]
      simp only [List.flatMap_append, List.cons_append]
      rw [lnLabels_labs (l := o.code) fun x hx => hf x (List.mem_append_left _ hx), List.map_flatMap]
      rw [show [Ln.exit, Ln.op 1].flatMap lnLabels = [exitText] from rfl, List.append_assoc, List.singleton_append]
      congr 3
      refine List.flatMap_congr fun e he => ?_
      rw [lnLabels_labs (l := e.code) fun x hx => hf x (List.mem_append_right _ (List.mem_flatMap.mpr ⟨e, he, hx⟩)), List.map_cons]
    · intro l hl
      obtain ⟨e, _, hl⟩ := List.mem_flatMap.mp hl
      exact regLines_labels strs e l hl
  have hall : ∀ k, k ∈ 0 :: defs o → labelText k ∈ labelsOf (items T ss ((chunksOf o).flatMap (regLines strs)) cs) := by
    intro k hk
    rw [hlab]
    rcases List.mem_cons.mp hk with rfl | hk
    · exact List.mem_cons_self
    · rcases List.mem_append.mp hk with hk | hk
      · exact List.mem_cons_of_mem _ (List.mem_append_left _ (List.mem_map_of_mem hk))
      · exact List.mem_cons_of_mem _ (List.mem_append_right _ (List.mem_cons_of_mem _ (List.mem_map_of_mem hk)))
  refine ⟨?_, ?_, ?_⟩
  · have hn : (0 :: defs o).Nodup := by
      rw [List.nodup_iff_count_le_one]
      intro k
      rw [List.count_cons]
      by_cases hk : k = 0
      · subst hk
        have := hl.old 0 (Nat.zero_lt_one : 0 < (start pre).labels)
        simp [this]
      · have := hl.new k (by show 1 ≤ k; omega)
        rw [if_neg (by simpa using fun e => hk e.symm)]
        simpa using this
    have hp2 : (labelText 0 :: ((labs o.code).map labelText ++ exitText :: (o.news.flatMap (fun e => e.label :: labs e.code)).map labelText)).Perm
        (exitText :: (0 :: defs o).map labelText) := by
      unfold defs
      rw [List.map_cons, List.map_append]
      exact (List.Perm.cons _ List.perm_middle).trans (List.Perm.swap ..)
    rw [hlab, hp2.nodup_iff, List.nodup_cons]
    refine ⟨fun h => ?_, hn.map fun a c h => labelText_inj h⟩
    obtain ⟨k, _, h⟩ := List.mem_map.mp h
    exact exit_ne k h.symm
  · have hlast : ∀ e ∈ chunksOf o, ∃ X i, e.code = X ++ [.op i] := by
      intro e he
      rcases List.mem_cons.mp he with rfl | he
      · exact ⟨o.code ++ [.exit], 1, by simp⟩
      · obtain ⟨X, h⟩ := hm e he
        exact ⟨X, 5, h⟩
    rcases List.eq_nil_or_concat cs with rfl | ⟨cs', c, rfl⟩
    · simp [chunksOf] at hp
    · rw [List.concat_eq_append] at hp ⊢
      obtain ⟨X, i, h⟩ := hlast (plain c) (by rw [← hp]; simp)
      obtain ⟨l1, l2, h1, h2, h3⟩ := List.map_eq_append_iff.mp h
      obtain ⟨e, l3, h4, h5, h6⟩ := List.map_eq_cons_iff.mp h3
      rw [List.map_eq_nil_iff] at h6
      subst h6
      refine ⟨.count ss.length :: (ss.map .str ++ .blank :: (((chunksOf o).flatMap (regLines strs)).flatMap (lnItems T none) ++
        .ins 0 none none :: (cs'.flatMap (chunkItems T) ++ (.blank :: .label (labelText c.label) none :: codeItems T l1)))), i, none, some e.2, ?_⟩
      unfold items
      simp only [List.flatMap_append, List.flatMap_cons, List.flatMap_nil, List.append_nil, chunkItems]
      rw [show codeItems T c.code = codeItems T l1 ++ [.ins i none (some e.2)] by
        rw [h1, h4]
        unfold codeItems
        rw [List.flatMap_append, List.flatMap_cons, h5]
        rfl]
      simp
  · rintro l ⟨op, d, h⟩
    have hln : ∀ {d d' : Option Pos} {x : Ln}, Item.ins op (some (.ref l)) d ∈ lnItems T d' x → ∃ k, Ln.ref? x = some k ∧ l = labelText k := by
      intro d d' x hx
      cases x with
      | ref i k =>
        simp only [lnItems, List.mem_singleton] at hx
        cases hx
        exact ⟨k, rfl, rfl⟩
      | _ => simp [lnItems] at hx
    unfold items at h
    rcases List.mem_cons.mp h with h | h
    · cases h
    rcases List.mem_append.mp h with h | h
    · simp at h
    rcases List.mem_cons.mp h with h | h
    · cases h
    rcases List.mem_append.mp h with h | h
    · obtain ⟨x, hx, h⟩ := List.mem_flatMap.mp h
      obtain ⟨k, h1, rfl⟩ := hln h
      obtain ⟨e, he, hx⟩ := List.mem_flatMap.mp hx
      apply hall
      have hk : k = e.label := by
        unfold regLines at hx
        cases hs : e.sym with
        | none => rw [hs] at hx; cases hx
        | some fg =>
          rw [hs] at hx
          simp only [List.mem_cons, List.not_mem_nil, or_false] at hx
          rcases hx with rfl | rfl | rfl
          · cases h1
          · cases h1; rfl
          · cases h1
      subst hk
      rcases List.mem_cons.mp he with rfl | he
      · exact List.mem_cons_self
      · exact List.mem_cons_of_mem _ (List.mem_append_right _ (List.mem_flatMap.mpr ⟨e, he, List.mem_cons_self⟩))
    rcases List.mem_cons.mp h with h | h
    · cases h
    obtain ⟨c, hc, h⟩ := List.mem_flatMap.mp h
    rcases List.mem_cons.mp h with h | h
    · cases h
    rcases List.mem_cons.mp h with h | h
    · cases h
    obtain ⟨x, hx, h⟩ := List.mem_flatMap.mp h
    obtain ⟨k, h1, rfl⟩ := hln h
    apply hall
    have hx2 : x.1 ∈ (plain c).code := List.mem_map_of_mem hx
    have hc2 : plain c ∈ chunksOf o := by rw [← hp]; exact List.mem_map_of_mem hc
    have href : k ∈ refs o := by
      refine List.mem_filterMap.mpr ⟨x.1, ?_, h1⟩
      rcases List.mem_cons.mp hc2 with e | hc2
      · rw [e] at hx2
        rcases List.mem_append.mp hx2 with hx2 | hx2
        · exact List.mem_append_left _ hx2
        · simp only [List.mem_cons, List.not_mem_nil, or_false] at hx2
          rcases hx2 with e | e <;> rw [e] at h1 <;> cases h1
      · exact List.mem_append_right _ (List.mem_flatMap.mpr ⟨_, hc2, hx2⟩)
    rcases hl.ref k href with h | h
    · cases h
    · exact List.mem_cons_of_mem _ h

/-! ### Programs -/

/-- The strings of a program: those given to the compiler and those in the program, without repetitions, in order. -/
def stringsOf (pre : List Bytes) (b : Ast) : List Bytes := firsts (pre ++ mentions .top b)

/-- A program that the compiler takes, and that has no more and no longer constants than fit. -/
structure Program (T : Tools) (pre : List Bytes) (b : Ast) : Prop where
  whole : complete b = true
  legal : Legal .top b
  once : ∀ d ∈ functions b, d.1 ∉ decls b
  nums : ∀ t ∈ consts b, NumOk T t
  strs : ∀ s ∈ stringsOf pre b, NoBreak s
  count : (stringsOf pre b).length ≤ 65535
  small : 65535 + weight b < 18446744073709551616

/-- The items of a program's assembly. -/
def itemsOf (T : Tools) (pre : List Bytes) (b : Ast) (o : Out) (cs : List Chunk) : List Item :=
  items T (stringsOf pre b) ((chunksOf o).flatMap (regLines (numbered (stringsOf pre b)))) cs

/-- What the compiler makes of a program. -/
structure Result (T : Tools) (pre : List Bytes) (b : Ast) (o : Out) (cs : List Chunk) : Prop where
  comp : comp b .val (start pre) = some o
  chunks : cs.map plain = chunksOf o
  strings : o.cs.strings = numbered (stringsOf pre b)
  code : ∀ c ∈ cs, ∀ e ∈ c.code, Okay (65535 + weight b) (consts b) e.1
  regs : ∀ l ∈ (chunksOf o).flatMap (regLines (numbered (stringsOf pre b))), Okay (65535 + weight b) (consts b) l
  links : Linkable (itemsOf T pre b o cs)
  defs : List.Forall₂ (DefAt o.news o.cs.strings) (named o.news) (functions b)

theorem tabs_start (pre : List Bytes) : Tabs (start pre) .top := ⟨[], rfl, fun e he => by cases he⟩

theorem preload_numbered (pre : List Bytes) : preload pre = numbered (firsts pre) := addAll_numbered pre []

theorem strings_of {pre : List Bytes} {b : Ast} {o : Out} (ho : Comp.comp b .val (start pre) = some o) : o.cs.strings = numbered (stringsOf pre b) := by
  rw [(comp_says b .val (start pre) o .top (tabs_start pre) ho).1]
  show addAll (addAll (numbered []) pre) _ = _
  rw [← addAll_append, addAll_numbered]
  rfl

theorem numbered_le {ss : List Bytes} : ∀ e ∈ numbered ss, e.2 ≤ 65535 := by
  intro e he
  obtain ⟨x, _, rfl⟩ := List.mem_map.mp he
  have := Nat.mod_lt x.2 (by decide : 65536 > 0)
  simp only
  omega

theorem bound_start (pre : List Bytes) : Bound 65535 (start pre) := by
  refine ⟨le_rfl, ?_, ?_⟩
  · show ∀ e ∈ preload pre, _
    rw [preload_numbered]
    exact numbered_le
  · intro t ht
    rw [List.mem_singleton.mp ht]
    exact ⟨by simp, fun e he => by cases he⟩

/-- The beginning of an assembly file: the number of strings and the strings, one a line. -/
def heading (ss : List Bytes) : Bytes := 33 :: (Obj.digits ss.length ++ 10 :: ss.flatMap (fun s => 39 :: (s ++ [10])))

/-- **The compiler and the assembler on a whole program.** -/
theorem compiled {T : Tools} {pre : List Bytes} {toks : List Lex.Tok} {fin : Bool} {ts : List T2} {v : Bytes} {b : Ast} (hs : Syn .stats ts b) (hts : ts ≠ [])
    (hP : Program T pre b) (ht : (toks.filter (fun t => decide (t.type ≠ .statend))).map (fun t => (t.type, t.value)) = ts ++ [(.eof, v)]) (hpos : ∀ t ∈ toks, PosOk (mark t)) :
    ∃ p o text, (∃ n, ∀ m, n ≤ m → script m pre toks fin = .ok (some p)) ∧ output p = .ok text ∧ Result T pre b o p.chunks ∧ FileOf T text (itemsOf T pre b o p.chunks) ∧
      ∃ rest, text = heading (stringsOf pre b) ++ 10 :: rest := by
  obtain ⟨o, ho⟩ := ((comp_takes b .val).2 (start pre) .top (tabs_start pre)).mpr hP.legal
  obtain ⟨p, h1, h2, h3, h4, n, h5⟩ := script_ok (fin := fin) hs hts hP.whole ht ho
  have hstr := strings_of ho
  obtain ⟨hB, hf⟩ := comp_emits b .val 65535 (start pre) o (bound_start pre) ho
  have hmade := (comp_makes b .val).2.2 (start pre) o .top (tabs_start pre) ho
  have hgens := ((comp_keep b .val).2 (start pre) o .top (tabs_start pre) ho).2
  have htops := (syn_tops hs).1
  have hbase : BaseOk (p.symstack.getLastD []) (numbered (stringsOf pre b)) := by
    obtain ⟨b', k1, k2⟩ : Tabs o.cs .top := (comp_tabs b .val) (start pre) o .top ho (tabs_start pre)
    rw [h2, k1, ← hstr]
    exact k2
  have hreg := registerAll_ok hbase p.chunks (by
    intro c hc f g hcs
    have hm : plain c ∈ chunksOf o := by
      show _ ∈ (_ :: _ : List EC)
      rw [← h1]
      exact List.mem_map_of_mem hc
    rcases List.mem_cons.mp hm with e | hm
    · have : (plain c).sym = none := by rw [e]
      rw [show (plain c).sym = c.sym from rfl, hcs] at this
      cases this
    · rcases hgens (plain c) hm f g hcs with hd | hd
      · exfalso
        have hn : plain c ∈ named o.news := List.mem_filter.mpr ⟨hm, by show c.sym.isSome = true; rw [hcs]; rfl⟩
        obtain ⟨i, hi, e1⟩ := List.getElem_of_mem hn
        have hlen := hmade.defs.length_eq
        have := List.forall₂_iff_get.mp hmade.defs
        obtain ⟨c', o', g', k1, _⟩ := this.2 i hi (by rw [← hlen]; exact hi)
        rw [List.get_eq_getElem, e1, show (plain c).sym = c.sym from rfl, hcs] at k1
        cases k1
        refine hP.once ((tops b).get ⟨i, by show i < (outer .top (tops b)).length; rw [← hlen]; exact hi⟩) ?_ hd
        rw [htops]
        exact List.get_mem _ _
      · rw [show p.symstack.getLastD [] = base o.cs by unfold base; rw [h2]]
        exact hd)
  rw [h1] at hreg
  have hokay : ∀ c ∈ p.chunks, ∀ e ∈ c.code, Okay (65535 + weight b) (consts b) e.1 := by
    intro c hc e he
    have hm : plain c ∈ chunksOf o := by
      show _ ∈ (_ :: _ : List EC)
      rw [← h1]
      exact List.mem_map_of_mem hc
    have hx : e.1 ∈ (plain c).code := List.mem_map_of_mem he
    rcases List.mem_cons.mp hm with h | hm
    · rw [h] at hx
      rcases List.mem_append.mp hx with hx | hx
      · exact Fine.okay (hf _ (List.mem_append_left _ hx))
      · simp only [List.mem_cons, List.not_mem_nil, or_false] at hx
        rcases hx with h | h <;> rw [h]
        · trivial
        · show (1 : Nat) < 35
          decide
    · exact Fine.okay (hf _ (List.mem_append_right _ (List.mem_flatMap.mpr ⟨_, hm, hx⟩)))
  have hregs : ∀ l ∈ (chunksOf o).flatMap (regLines (numbered (stringsOf pre b))), Okay (65535 + weight b) (consts b) l := by
    intro l hl
    obtain ⟨e, he, hl⟩ := List.mem_flatMap.mp hl
    unfold regLines at hl
    cases hsym : e.sym with
    | none => rw [hsym] at hl; cases hl
    | some fg =>
      rw [hsym] at hl
      simp only [List.mem_cons, List.not_mem_nil, or_false] at hl
      rcases hl with rfl | rfl | rfl
      · refine ⟨by decide, by omega, ?_⟩
        cases hg : FMap.get (numbered (stringsOf pre b)) fg.1 with
        | none => simp; omega
        | some i =>
          have := numbered_le _ (FMap.mem_of_get hg)
          simp only [Option.getD_some] at this ⊢
          omega
      · exact ⟨by decide, by decide⟩
      · show (29 : Nat) < 35
        decide
  have hlink : Linkable (itemsOf T pre b o p.chunks) := linkable ho hf hmade.ends h1
  have hsorted : sorted p.strings = stringsOf pre b := by
    rw [h3, hstr]
    exact sorted_numbered (hP.count.trans (by decide))
  obtain ⟨text, htext⟩ : ∃ text, output p = .ok text := by
    unfold output
    rw [hreg, Res.ok_bind]
    exact ⟨_, rfl⟩
  refine ⟨p, o, text, ⟨n, h5⟩, htext, ⟨ho, h1, hstr, hokay, hregs, hlink, ?_⟩, ?_, ?_⟩
  · rw [htops]
    exact hmade.defs
  rotate_left
  · unfold output at htext
    rw [hreg, Res.ok_bind, hsorted, h3, hstr, numbered_length] at htext
    cases htext
    refine ⟨(((chunksOf o).flatMap (regLines (numbered (stringsOf pre b)))).flatMap (fun l => l.text ++ [10]) ++ ((9 :: opName 0) ++ 10 :: p.chunks.flatMap chunkText)), ?_⟩
    simp [heading, chunksOf]
  · have hseen := script_seen (H := PosOk) (h5 n le_rfl) hpos
    exact output_file hP.small hP.nums htext hreg hsorted (by have := hP.count; omega) hP.strs hregs fun c hc e he => ⟨hokay c hc e he, hseen c hc e he⟩

end Buzz.Link
