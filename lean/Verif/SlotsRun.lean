import Verif.Slots
import Verif.PcFlow
import Verif.Place

/-
The number of local slots while a compiled function runs.
-/
namespace Buzz.Sim

open Buzz.Msg Buzz.Lex Buzz.Parser Buzz.Comp Buzz.VM Buzz.Heap

theorem LnAt.unique {K : Ctx} {p q q' : Nat} {x : Ln} (h : LnAt K p x q) (h' : LnAt K p x q') : q = q' := by
  cases x with
  | lab k => exact h.2.trans h'.2.symm
  | exit => exact Eq.trans h (Eq.symm h')
  | op i => exact h.2.trans h'.2.symm
  | num i v => exact h.2.2.trans h'.2.2.symm
  | txt i t => exact h.2.2.trans h'.2.2.symm
  | ref i k => exact h.2.2.2.trans h'.2.2.2.symm

theorem CodeAt.unique {K : Ctx} {ls : List Ln} : ∀ {p q q' : Nat}, CodeAt K p ls q → CodeAt K p ls q' → q = q' := by
  induction ls with
  | nil => intro p q q' h h'; exact Eq.trans h (Eq.symm h')
  | cons x ls ih =>
    rintro p q q' ⟨r, h1, h2⟩ ⟨r', h3, h4⟩
    obtain rfl := h1.unique h3
    exact ih h2 h4

/-- The program counter and the symbols of the running function at some place of the code `g` at `l`. -/
def Spot (K : Ctx) (l d : Nat) (g : List Rec) (pc : Int) (f : Frame) : Prop :=
  ∃ pre post, g = pre ++ post ∧ 0 ≤ pc ∧ CodeAt K l (rows pre) pc.toNat ∧ f.syms.length = slots d pre

theorem rows_one (x : Rec) (a b : List Rec) : rows (a ++ x :: b) = rows (a ++ [x]) ++ rows b := by
  rw [← List.singleton_append, ← List.append_assoc, rows_append]

/-- The next line with an instruction. -/
theorem next_line {K : Ctx} {l r d : Nat} {g : List Rec} (hc : CodeAt K l (rows g ++ [.op 5]) r) (hf : Flow Non d g) : ∀ (post pre : List Rec) (p : Nat),
    g = pre ++ post → CodeAt K l (rows pre) p →
    ∃ (pre' : List Rec) (x : Ln) (q : Nat), CodeAt K l (rows pre') p ∧ slots d pre' = slots d pre ∧ LnAt K p x q ∧
      ((∃ post', g = pre' ++ .ln x :: post' ∧ CodeAt K l (rows (pre' ++ [.ln x])) q ∧ p < q ∧ Suits Non d g (slots d pre) (.ln x)) ∨ (g = pre' ∧ x = .op 5)) := by
  intro post
  induction post with
  | nil =>
    intro pre p e h
    rw [List.append_nil] at e
    obtain ⟨r1, h1, h2⟩ := codeAt_append.mp hc
    rw [e] at h1
    obtain rfl := h1.unique h
    exact ⟨pre, .op 5, r, h, rfl, codeAt_one.mp h2, .inr ⟨e, rfl⟩⟩
  | cons x post ih =>
    intro pre p e h
    have e2 : g = (pre ++ [x]) ++ post := by rw [e]; simp
    cases x with
    | mark n =>
      have hl : rows (pre ++ [Rec.mark n]) = rows pre := by rw [rows_append]; simp [rows]
      obtain ⟨pre', x, q, h1, h2, h3⟩ := ih (pre ++ [.mark n]) p e2 (by rw [hl]; exact h)
      rw [slots_append] at h2 h3
      exact ⟨pre', x, q, h1, h2, h3⟩
    | ln x =>
      have hs := hf pre (.ln x) post e
      have hx : ∃ q, LnAt K p x q := by
        obtain ⟨r1, h1, h2⟩ := codeAt_append.mp hc
        rw [e, rows_append] at h1
        obtain ⟨r2, h3, h4⟩ := codeAt_append.mp h1
        obtain rfl := h3.unique h
        obtain ⟨q, h5, h6⟩ := h4
        exact ⟨q, h5⟩
      obtain ⟨q, hq⟩ := hx
      have hpre : CodeAt K l (rows (pre ++ [.ln x])) q := by
        rw [rows_append]
        exact codeAt_append.mpr ⟨p, h, codeAt_one.mpr hq⟩
      by_cases hz : p < q
      · exact ⟨pre, x, q, h, rfl, hq, .inl ⟨post, e, hpre, hz, hs⟩⟩
      · have hpq : q = p := by have := hq.le; omega
        have hgr : grow (slots d pre) (.ln x) = slots d pre := by
          cases x with
          | num i v => have := hq.2.2; omega
          | _ => rfl
        obtain ⟨pre', x', q', h1, h2, h3⟩ := ih (pre ++ [.ln x]) p e2 (by rw [← hpq]; rw [hpq] at hpre; rw [hpq]; exact hpre)
        have hsl : slots d (pre ++ [.ln x]) = slots d pre := by rw [slots_append]; exact hgr
        rw [hsl] at h2 h3
        exact ⟨pre', x', q', h1, h2, h3⟩

theorem grow_num (d i : Nat) (v : Int) : grow d (.ln (.num i v)) = if i = 42 then (if v = d then d + 1 else d) else if i = 43 then d - v.toNat else d := rfl

/-- Slots are made by instructions. -/
theorem slots_le {K : Ctx} {pre : List Rec} : ∀ {d l q : Nat}, CodeAt K l (rows pre) q → slots d pre + l ≤ d + q := by
  induction pre with
  | nil =>
    intro d l q h
    cases h
    exact Nat.le_refl _
  | cons x pre ih =>
    intro d l q h
    cases x with
    | mark n => exact ih h
    | ln x =>
      obtain ⟨r, h1, h2⟩ := h
      have := ih (d := grow d (.ln x)) h2
      have hg : grow d (.ln x) + l ≤ d + r := by
        cases x with
        | num i v =>
          have := h1.2.2
          rw [grow_num]
          by_cases h1 : i = 42
          · rw [if_pos h1]
            by_cases h2 : v = (d : Int)
            · rw [if_pos h2]; omega
            · rw [if_neg h2]; omega
          · rw [if_neg h1]
            by_cases h2 : i = 43
            · rw [if_pos h2]; omega
            · rw [if_neg h2]; omega
        | _ =>
          have := h1.le
          show d + l ≤ d + r
          omega
      show slots (grow d (.ln x)) pre + l ≤ d + q
      omega

theorem op_plain : ∀ i < 35, ∀ op, opcodes[i]? = some op → hasArg op = false := by
  intro i hi op h
  have : ∀ i < 35, ((opcodes[i]?).all fun op => !hasArg op) = true := by decide
  have := this i hi
  rw [h] at this
  simpa using this

/-- The outcome of a step at some place of the code. -/
inductive Stepped (K : Ctx) (l d : Nat) (g : List Rec) (fs : List Frame) (f : Frame) (v w : VM) : Prop where
  | on {f' : Frame} : w.rest = v.rest → w.code = v.code → w.frames = f' :: fs → Spot K l d g w.pc f' → Stepped K l d g fs f v w
  | back : w.rest.length < v.rest.length → Stepped K l d g fs f v w
  | into {sw : Bool} {p : Nat} {s : List Nat} : Inside (sw = true) False w.heap p s v.rest v.frames (v.pc + 1) v.code v.swarmstack w → Spot K l d g (v.pc + 1) f →
      Stepped K l d g fs f v w

theorem spot_step {K : Ctx} (hK : Good K) {l r d : Nat} {g : List Rec} (hc : CodeAt K l (rows g ++ [.op 5]) r) (hr : r ≤ K.code.length) (hf : Flow Non d g)
    (hd : d ≤ 2147483647) {v w : VM} {f : Frame} {fs : List Frame} (i : VInv v) (hv : v.state = .ready) (hcode : v.code = K.code) (hfr : v.frames = f :: fs)
    (hs : Spot K l d g v.pc f) (h : step K.E K.F v = .ok w) (hw : w.state = .ready) (hC : CReturns v w) : Stepped K l d g fs f v w := by
  obtain ⟨pre0, post0, e0, hpc, hat0, hlen0⟩ := hs
  obtain ⟨pre, x, q, hat, hsl, hx, hcase⟩ := next_line hc hf post0 pre0 _ e0 hat0
  obtain ⟨hp, op, h', sm', hfe, m, k, hb⟩ := step_moved i hv h hw
  have hlen : f.syms.length = slots d pre := by rw [hsl]; exact hlen0
  have hn : ((v.pc.toNat : Nat) : Int) = v.pc := by omega
  have hcall : op ∈ [Op.callc, .calls] → (∀ q', q' = v.pc.toNat + 1 → CodeAt K l (rows (pre ++ [.ln x])) q' ∧ grow (slots d pre) (.ln x) = slots d pre) →
      (∃ post', g = pre ++ .ln x :: post') → Moved { v with heap := h', strings := sm' } op w → Stepped K l d g fs f v w := by
    intro ho hq ⟨post', e⟩ m
    obtain ⟨hq, hgr⟩ := hq _ rfl
    have hsp : Spot K l d g (v.pc + 1) f := by
      refine ⟨pre ++ [.ln x], post', by rw [e]; simp, by omega, ?_, ?_⟩
      · rw [show (v.pc + 1).toNat = v.pc.toNat + 1 by omega]
        exact hq
      · rw [slots_append, hlen]; exact hgr.symm
    cases m with
    | flat _ hno => simp only [List.mem_cons, List.not_mem_nil, or_false] at ho hno; rcases ho with rfl | rfl <;> simp at hno
    | back hr _ => simp only [List.mem_cons, List.not_mem_nil, or_false] at ho hr; rcases ho with rfl | rfl <;> simp at hr
    | enter hop m =>
      obtain ⟨n, ref, la, p, e1, e2, e3, e4, e5, e6, e7, e8⟩ := m.ex
      exact .into ⟨[], [], _, e7, e5, rfl, Iff.rfl, e8, fun _ _ _ h => h, m.code, False.elim⟩ hsp
    | cfun _ hn0 hclo =>
      have hsw : ∃ sw : Bool, op = if sw then Op.calls else .callc := by
        simp only [List.mem_cons, List.not_mem_nil, or_false] at ho
        rcases ho with rfl | rfl
        · exact ⟨false, rfl⟩
        · exact ⟨true, rfl⟩
      obtain ⟨sw, rfl⟩ := hsw
      have back : ∀ {n : Nat} {c : Cell}, VM.At { v with heap := h', strings := sm' } n c → VM.At v n c := fun ⟨a, h1, h2⟩ => ⟨a, h1, hb _ _ h2⟩
      obtain ⟨a1, c1, y1, y2, y3⟩ := hn0
      have hn1 : Val v 0 (.int _) := ⟨a1, c1, y1, hb _ _ y2, y3⟩
      obtain ⟨c1, c2, c3, _, c5, _⟩ := hC sw _ _ _ hfe hn1 (back hclo)
      exact .on c1 c5 (c2.trans hfr) (by rw [c3]; exact hsp)
  rcases hcase with ⟨post', e, hnext, hlt, hsuit⟩ | ⟨e, rfl⟩
  · have e' : g = (pre ++ [.ln x]) ++ post' := by rw [e]; simp
    rw [← hsl] at hsuit
    have hq32 : q ≤ 2147483647 := by
      have : q ≤ r := by
        obtain ⟨r1, h1, h2⟩ := codeAt_append.mp hc
        rw [e', rows_append] at h1
        obtain ⟨r2, h3, h4⟩ := codeAt_append.mp h1
        obtain rfl := h3.unique hnext
        exact h4.le.trans h2.le
      have := hK.size
      omega
    have hbound : slots d pre ≤ 4294967294 := by
      have := slots_le (d := d) hat
      have := hx.le
      omega
    -- the machine goes on to `q`, with the slots of the line
    have goOn : ∀ f', w.rest = v.rest → w.code = v.code → w.frames = f' :: fs → w.pc = (q : Int) → f'.syms.length = grow (slots d pre) (.ln x) → Stepped K l d g fs f v w := by
      intro f' a1 a2 a3 a4 a5
      refine .on a1 a2 a3 ⟨pre ++ [.ln x], post', e', by omega, ?_, by rw [slots_append]; exact a5⟩
      rw [a4]
      exact hnext
    have flat : op ∉ [Op.callc, .calls, .ret0, .ret1] → Flat op { v with heap := h', strings := sm' } w ∧ Goes K.E v op w := by
      intro ho
      refine ⟨?_, step_goes i hv hp hfe ho h hw⟩
      cases m with
      | flat m _ => exact m
      | back hr _ => exact absurd (by simp only [List.mem_cons, List.not_mem_nil, or_false] at hr ⊢; tauto) ho
      | @enter sw hop _ => exact absurd (by rw [hop]; cases sw <;> simp) ho
      | cfun hr _ _ => exact absurd (by simp only [List.mem_cons, List.not_mem_nil, or_false] at hr ⊢; tauto) ho
    obtain ⟨n0, hn0, hop⟩ := hfe
    rw [hcode] at hn0
    cases x with
    | lab k => have := hx.2; omega
    | exit => exact hsuit.elim
    | op j =>
      obtain ⟨hj, hq⟩ := hx
      rw [hj] at hn0
      cases hn0
      by_cases hcl : op ∈ [Op.callc, .calls]
      · exact hcall hcl (fun q' hq' => ⟨by rw [hq', ← hq]; exact hnext, rfl⟩) ⟨post', e⟩ m
      · by_cases hrt : op ∈ [Op.ret0, .ret1]
        · cases m with
          | flat _ hno => exact absurd (by simp only [List.mem_cons, List.not_mem_nil, or_false] at hrt ⊢; tauto) hno
          | back _ m =>
            obtain ⟨_, _, _, _, _, b2, _⟩ := m.ex
            refine .back ?_
            have b2 : v.rest = _ := b2
            rw [b2]
            simp
          | @enter sw hop' _ => exact absurd (by rw [hop']; cases sw <;> simp) hcl
          | cfun hr _ _ => exact absurd hr hcl
        · obtain ⟨m, hg⟩ := flat (by simp only [List.mem_cons, List.not_mem_nil, or_false] at hcl hrt ⊢; tauto)
          have ha := op_plain _ hsuit.1 _ hop
          unfold Goes at hg
          rw [if_neg (by simp [ha])] at hg
          have hne : op ∉ [Op.lstore, .lremove] := by
            intro hm
            simp only [List.mem_cons, List.not_mem_nil, or_false] at hm
            rcases hm with rfl | rfl <;> cases ha
          exact goOn f m.rest m.code ((m.frames hne).trans hfr) (by rw [hg, hq]; omega) hlen
    | num j a =>
      obtain ⟨hj, hArg, hq⟩ := hx
      rw [hj] at hn0
      cases hn0
      obtain ⟨su1, su2, su3, su4⟩ := hsuit
      have harg : ∀ a', rd32 K.E.endian v.code (v.pc + 1).toNat = .ok a' → a' = (a % 4294967296).toNat := by
        intro a' h'
        rw [hcode, show (v.pc + 1).toNat = v.pc.toNat + 1 by omega, hArg.2] at h'
        cases h'
        rfl
      simp only [List.mem_cons, List.not_mem_nil, or_false] at su4
      rcases su4 with rfl | rfl | rfl | rfl | rfl
      · cases hop
        obtain ⟨m, a', _, hg⟩ := flat (by simp)
        exact goOn f m.rest m.code ((m.frames (by simp)).trans hfr) (by simp only at hg; omega) hlen
      · cases hop
        obtain ⟨m, a', _, hg⟩ := flat (by simp)
        exact goOn f m.rest m.code ((m.frames (by simp)).trans hfr) (by simp only at hg; omega) hlen
      · cases hop
        obtain ⟨m, a', _, hg⟩ := flat (by simp)
        exact goOn f m.rest m.code ((m.frames (by simp)).trans hfr) (by simp only at hg; omega) hlen
      · cases hop
        obtain ⟨m, a', ha', hg, f1, fs1, f2, g1, g2, g3, g4⟩ := flat (by simp)
        have := su2 rfl
        rw [hfr] at g1
        cases g1
        refine goOn f2 m.rest m.code g2 (by omega) ?_
        rw [g4]
        have ha := harg a' ha'
        have : a % 4294967296 = a := Int.emod_eq_of_lt (by omega) (by omega)
        rw [this] at ha
        rw [grow_num, if_pos rfl, hlen]
        by_cases hc : a = (slots d pre : Int)
        · rw [if_pos hc, if_pos (by omega)]
        · rw [if_neg hc, if_neg (by omega)]
      · cases hop
        obtain ⟨m, a', ha', hg, f1, fs1, f2, g1, g2, g4⟩ := flat (by simp)
        have := su3 rfl
        rw [hfr] at g1
        cases g1
        refine goOn f2 m.rest m.code g2 (by omega) ?_
        rw [g4]
        have ha := harg a' ha'
        have : a % 4294967296 = a := Int.emod_eq_of_lt (by omega) (by omega)
        rw [this] at ha
        rw [grow_num, if_neg (by decide), if_pos rfl, hlen, ha]
    | txt j t =>
      obtain ⟨hj, _, hq⟩ := hx
      have hsuit : j ∈ [35, 36] := hsuit
      rw [hj] at hn0
      cases hn0
      simp only [List.mem_cons, List.not_mem_nil, or_false] at hsuit
      rcases hsuit with rfl | rfl
      · cases hop
        obtain ⟨m, a', _, hg⟩ := flat (by simp)
        exact goOn f m.rest m.code ((m.frames (by simp)).trans hfr) (by simp only at hg; omega) hlen
      · cases hop
        obtain ⟨m, a', _, hg⟩ := flat (by simp)
        exact goOn f m.rest m.code ((m.frames (by simp)).trans hfr) (by simp only at hg; omega) hlen
    | ref j kk =>
      obtain ⟨hj, hArg, hpos, hq⟩ := hx
      rw [hj] at hn0
      cases hn0
      have harg : ∀ a', rd32 K.E.endian v.code (v.pc + 1).toNat = .ok a' → intOfU32 a' = (K.pos kk : Int) := by
        intro a' h'
        rw [hcode, show (v.pc + 1).toNat = v.pc.toNat + 1 by omega, hArg.2] at h'
        cases h'
        unfold intOfU32
        rw [if_pos (by have := hK.size; omega)]
      rcases hsuit with rfl | ⟨hj', hG | hH⟩
      · cases hop
        obtain ⟨m, a', _, hg⟩ := flat (by simp)
        exact goOn f m.rest m.code ((m.frames (by simp)).trans hfr) (by simp only at hg; omega) hlen
      · exact hG.elim
      · -- the target
        obtain ⟨pre', post2, e2, hs2⟩ := hH
        have jump : ∀ f', w.rest = v.rest → w.code = v.code → w.frames = f' :: fs → w.pc = (K.pos kk : Int) → f'.syms.length = slots d pre → Stepped K l d g fs f v w := by
          intro f' a1 a2 a3 a4 a5
          refine .on a1 a2 a3 ⟨pre', .ln (.lab kk) :: post2, e2, by omega, ?_, by rw [a5, hs2]⟩
          rw [a4]
          obtain ⟨r1, h1, h2⟩ := codeAt_append.mp hc
          rw [e2, rows_append] at h1
          obtain ⟨r2, h3, r3, h4, h5⟩ := codeAt_append.mp h1
          have := h4.1
          show CodeAt K l (rows pre') (K.pos kk)
          rw [this]
          exact h3
        simp only [List.mem_cons, List.not_mem_nil, or_false] at hj'
        rcases hj' with rfl | rfl | rfl
        · cases hop
          obtain ⟨m, a', ha, hg⟩ := flat (by simp)
          exact jump f m.rest m.code ((m.frames (by simp)).trans hfr) (by simp only at hg; rw [hg]; exact harg a' ha) hlen
        · cases hop
          obtain ⟨m, a', ha, hg⟩ := flat (by simp)
          rcases hg with hg | hg
          · exact goOn f m.rest m.code ((m.frames (by simp)).trans hfr) (by omega) hlen
          · exact jump f m.rest m.code ((m.frames (by simp)).trans hfr) (by rw [hg]; exact harg a' ha) hlen
        · cases hop
          obtain ⟨m, a', ha, hg⟩ := flat (by simp)
          rcases hg with hg | hg
          · exact goOn f m.rest m.code ((m.frames (by simp)).trans hfr) (by omega) hlen
          · exact jump f m.rest m.code ((m.frames (by simp)).trans hfr) (by rw [hg]; exact harg a' ha) hlen
  · -- the final return
    obtain ⟨hj, hq⟩ := hx
    obtain ⟨n0, hn0, hop⟩ := hfe
    rw [hcode, hj] at hn0
    cases hn0
    cases hop
    cases m with
    | flat _ hno => simp at hno
    | back _ m =>
      obtain ⟨_, _, _, _, _, b2, _⟩ := m.ex
      refine .back ?_
      have b2 : v.rest = _ := b2
      rw [b2]
      simp
    | @enter sw hop' _ => cases sw <;> cases hop'
    | cfun hr _ _ => simp at hr

/-- The machine runs in state ready; at least `base` stacks lie below the current one, and C functions return to their callers. -/
inductive Acts (E : Env) (F : CFuns) (base : Nat) (vm : VM) : VM → Prop where
  | here : Acts E F base vm vm
  | step {v w : VM} : Acts E F base vm v → VM.step E F v = .ok w → w.state = .ready → CReturns v w → base ≤ w.rest.length → Acts E F base vm w

/-- The machine is at some place of the code, or in a function called from there. -/
inductive Active (K : Ctx) (l d : Nat) (g : List Rec) (rest : List (List Nat)) (fs : List Frame) (w : VM) : Prop where
  | now {f : Frame} : w.rest = rest → w.code = K.code → w.frames = f :: fs → Spot K l d g w.pc f → Active K l d g rest fs w
  | later {f : Frame} {sw : Bool} {h : Heap} {p : Nat} {s : List Nat} {pc : Int} {ss : List Nat} : rest.length < w.rest.length →
      Inside (sw = true) False h p s rest (f :: fs) pc K.code ss w → Spot K l d g pc f → Active K l d g rest fs w

theorem acts_active {K : Ctx} (hK : Good K) {l r d : Nat} {g : List Rec} (hc : CodeAt K l (rows g ++ [.op 5]) r) (hr : r ≤ K.code.length) (hf : Flow Non d g)
    (hd : d ≤ 2147483647) {vm w : VM} {f : Frame} {fs : List Frame} (i : VInv vm) (hv : vm.state = .ready) (hcode : vm.code = K.code) (hfr : vm.frames = f :: fs)
    (hs : Spot K l d g vm.pc f) (h : Acts K.E K.F vm.rest.length vm w) : VInv w ∧ w.state = .ready ∧ Active K l d g vm.rest fs w := by
  induction h with
  | here => exact ⟨i, hv, .now rfl hcode hfr hs⟩
  | @step v w _ hst hw hC hb ih =>
    obtain ⟨iv, rv, av⟩ := ih
    have iw : VInv w := by
      have hpc : PcIn v := (step_moved iv rv hst hw).1
      have := step_out (E := K.E) hK.funs iv (fun _ => hpc)
      rw [hst] at this
      exact this.1
    refine ⟨iw, hw, ?_⟩
    cases av with
    | now a1 a2 a3 a4 =>
      cases spot_step hK hc hr hf hd iv rv a2 a3 a4 hst hw hC with
      | on b1 b2 b3 b4 => exact .now (b1.trans a1) (b2.trans a2) b3 b4
      | back b => rw [a1] at b; omega
      | into b1 b2 =>
        rw [a1, a2, a3] at b1
        refine .later ?_ b1 b2
        obtain ⟨pre, _, _, e, _⟩ := b1
        rw [e]
        simp
        omega
    | later a1 a2 a3 =>
      rcases inside_step iv rv hst hw hC False.elim a2 with ⟨b1, b2⟩ | ⟨⟨b1, b2, _, b4, b5, _⟩, _⟩
      · exact .later b2 b1 a3
      · exact .now b1 b5 b2 (by rw [b4]; exact a3)

end Buzz.Sim
